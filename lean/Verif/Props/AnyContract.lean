import Verif.Spec.AnyRun
import Verif.Proofs.KindInv
import Verif.Props.Contract
/-
  C88: the allocator assumed in C82 is exactly an allocator that keeps to the documentation of `Allocator`.
-/
namespace Blink

theorem answersIn_append (a b : List (Op × Resp)) : answersIn (a ++ b) = answersIn a ++ answersIn b := by
  induction a with
  | nil => rfl
  | cons p t ih => obtain ⟨op, r⟩ := p; simp only [List.cons_append, answersIn, ih, List.append_assoc]

theorem Owned.blk_inj {b c : Owned} (h : b.blk = c.blk) : b = c := by
  cases b; cases c
  simp only [Owned.blk, BaseBlk.mk.injEq, Layout.mk.injEq] at h
  simp [h]

theorem erase_map_blk {L : List Owned} {b : Owned} (hb : b ∈ L) {F H : List BaseBlk} (h : H.Perm (L.map Owned.blk ++ F)) :
    (H.erase b.blk).Perm ((L.erase b).map Owned.blk ++ F) := by
  have h1 := h.trans (((List.perm_cons_erase hb).map Owned.blk).append_right F)
  rw [List.map_cons, List.cons_append] at h1
  have := h1.erase b.blk
  rwa [List.erase_cons_head] at this

/-- The allocator is in a state in which its callers cannot tell it from the state `σ` of the documentation: uninitialised bytes may have any contents. -/
structure AnyLike (s0 s : St) (σ : AbsState) : Prop where
  ok : HeldOK s.w
  held : s.w.held.Perm (σ.owned.map Owned.blk ++ s0.w.held)
  mem : ∀ b ∈ σ.owned, ∀ x, b.Has x → s.w.mem x = .uninit ∨ s.w.mem x = σ.mem x
  oracle : s.w.oracle = s0.w.oracle
  top : s.w.top = s0.w.top
  foreign : SameIn s0.w.held s0.w.mem s.w.mem

theorem fresh_of_abs {w : World} {L : List Owned} {F : List BaseBlk} {l : Layout} {s : Slice} (hh : w.held.Perm (L.map Owned.blk ++ F))
    (hf : FreshFor L l s) (hr : s.len < ISIZE ∧ s.addr + s.len < w.top ∧
      ∀ f ∈ F, ∀ x, ¬ ((f.addr ≤ x ∧ x < f.addr + f.len) ∧ s.addr ≤ x ∧ x < s.addr + s.len)) : freshOk w l s = true := by
  have key : ∀ a n b m : Nat, (∀ x, ¬ ((a ≤ x ∧ x < a + n) ∧ b ≤ x ∧ x < b + m)) → m = 0 ∨ n = 0 ∨ b + m ≤ a ∨ a + n ≤ b := by
    intro a n b m h
    have h1 := h a
    have h2 := h b
    omega
  simp only [freshOk, Bool.and_eq_true, decide_eq_true_eq, List.all_eq_true]
  refine ⟨⟨⟨⟨⟨hf.pos, hf.aligned⟩, hf.size⟩, hr.1⟩, hr.2.1⟩, fun b hb => ?_⟩
  rcases List.mem_append.mp (hh.mem_iff.mp hb) with h1 | h1
  · obtain ⟨o, ho, rfl⟩ := List.mem_map.mp h1
    exact key o.addr o.len _ _ (hf.apart o ho)
  · exact key b.addr b.len _ _ (hr.2.2 b h1)

/-- A new block beside `L`. -/
theorem AnyLike.put {s0 : St} {w : World} {L : List Owned} {l : Layout} {sl : Slice} {H : List BaseBlk} {m m' m'' : Nat → Byte} {lg : List BaseEvent} {n : Nat} {a : BA}
    (ok : HeldOK { w with held := H }) (hh : H.Perm (L.map Owned.blk ++ s0.w.held)) (ho : w.oracle = s0.w.oracle) (ht : w.top = s0.w.top)
    (hfo : SameIn s0.w.held s0.w.mem w.mem) (hfr : freshOk { w with held := H } l sl = true)
    (hm : ∀ b ∈ L, ∀ x, b.Has x → w.mem x = .uninit ∨ w.mem x = m x) (hk : SameOn L m m')
    (hout : ∀ b ∈ H, ∀ x, b.addr ≤ x → x < b.addr + b.len → m'' x = w.mem x)
    (hin : ∀ i, i < sl.len → m'' (sl.addr + i) = .uninit ∨ m'' (sl.addr + i) = m' (sl.addr + i)) :
    AnyLike s0 ⟨{ w with calls := n, log := lg, held := ⟨sl.addr, sl.len, l⟩ :: H, mem := m'' }, a⟩ ⟨Owned.of sl l :: L, m'⟩ := by
  obtain ⟨f1, f2, f3, f4, f5⟩ := freshOk_facts hfr
  refine ⟨⟨ok.top, ?_, ?_⟩, ?_, ?_, ho, ht, fun f hf x h1 h2 => (hout f (hh.mem_iff.mpr (List.mem_append_right _ hf)) x h1 h2).trans (hfo f hf x h1 h2)⟩
  · exact List.pairwise_cons.mpr ⟨fun b hb => f5 b hb, ok.dis⟩
  · intro b hb
    rcases List.mem_cons.mp hb with rfl | hb
    · exact ⟨f1, f4⟩
    · exact ok.rng b hb
  · exact hh.cons _
  · intro b hb x hx
    rcases List.mem_cons.mp hb with rfl | hb
    · have h1 := hx.1; have h2 := hx.2
      simp only [Owned.of] at h1 h2
      obtain ⟨i, rfl⟩ : ∃ i, x = sl.addr + i := ⟨x - sl.addr, by omega⟩
      exact hin i (by omega)
    · have hbm : b.blk ∈ H := hh.mem_iff.mpr (List.mem_append_left _ (List.mem_map_of_mem hb))
      show m'' x = .uninit ∨ m'' x = m' x
      rw [hout b.blk hbm x hx.1 hx.2, hk b hb x hx]
      exact hm b hb x hx

theorem HeldOK.erased {w : World} (h : HeldOK w) (d : BaseBlk) : HeldOK { w with held := w.held.erase d } :=
  ⟨h.top, h.dis.sublist List.erase_sublist, fun b hb => h.rng b (List.mem_of_mem_erase hb)⟩

theorem HeldOK.erased' {w : World} (h : HeldOK w) (d : BaseBlk) {lg m} : HeldOK { w with held := w.held.erase d, log := lg, mem := m } :=
  ⟨h.top, h.dis.sublist List.erase_sublist, fun b hb => h.rng b (List.mem_of_mem_erase hb)⟩

theorem AnyLike.reset' {s0 s : St} {σ : AbsState} (h0 : HeldOK s0.w) (h : AnyLike s0 s σ) (m : Nat → Byte) :
    AnyLike s0 { s with w := { s.w with
      held := s0.w.held
      mem := fun x => if s0.w.held.any (fun b => decide (b.addr ≤ x ∧ x < b.addr + b.len)) then s.w.mem x else .uninit } } ⟨[], m⟩ where
  ok := ⟨h.ok.top, h0.dis, fun b hb => by rw [show s.w.top = s0.w.top from h.top]; exact h0.rng b hb⟩
  held := .refl _
  mem := fun _ hb => nomatch hb
  oracle := h.oracle
  top := h.top
  foreign := fun f hf x h1 h2 => (if_pos (List.any_eq_true.mpr ⟨f, hf, by simp only [decide_eq_true_eq]; exact ⟨h1, h2⟩⟩)).trans (h.foreign f hf x h1 h2)

theorem AnyLike.step {s0 s : St} {σ σ' : AbsState} {op : Op} {r : Resp} (h0 : HeldOK s0.w) (h : AnyLike s0 s σ) (hl : Legal σ.owned op) (hz : op.WithBytes)
    (hs : AbsStep σ op r σ')
    (hr : ∀ sl, r = .block sl → sl.len < ISIZE ∧ sl.addr + sl.len < s0.w.top ∧
        ∀ f ∈ s0.w.held, ∀ x, ¬ ((f.addr ≤ x ∧ x < f.addr + f.len) ∧ sl.addr ≤ x ∧ x < sl.addr + sl.len))
    (ho : op.requests = true → s.w.oracle s.w.calls = r.answer) :
    ∃ s', (AKind.any false false s0.w.held).step s op = .ok (r, s') ∧ AnyLike s0 s' σ' ∧
      s'.w.calls = s.w.calls + (if op.requests = true then 1 else 0) ∧ After σ.owned op r σ'.owned := by
  have hok : HeldOK { s.w with held := s.w.held } := h.ok
  rw [show s0.w.top = s.w.top from h.top.symm] at hr
  cases hs with
  | @allocate l sl m hf hk =>
    have ho : s.w.oracle s.w.calls = some sl := ho rfl
    have hfr := fresh_of_abs (w := s.w) h.held hf (hr _ rfl)
    refine ⟨_, ?_, AnyLike.put (w := s.w) (a := s.a) (sl := sl) (l := l) hok h.held h.oracle h.top h.foreign hfr h.mem hk (m'' := setBytes s.w.mem sl.addr sl.len (fun _ => .uninit))
      (fun b hb x h1 h2 => setBytes_out (fresh_out hfr hb h1 h2)) (fun i hi => .inl (setBytes_in hi)) (lg := .alloc l sl :: s.w.log) (n := s.w.calls + 1), rfl, .allocOk⟩
    simp only [AKind.step, anyStep]
    have : baseAlloc l s.w = .ok (some sl, { s.w with calls := s.w.calls + 1, log := .alloc l sl :: s.w.log, held := ⟨sl.addr, sl.len, l⟩ :: s.w.held, mem := setBytes s.w.mem sl.addr sl.len (fun _ => .uninit) }) := by
      unfold baseAlloc; rw [ho]; simp only [hfr, if_true]
    rw [St.mem_ok this]
    rfl
  | @allocateZeroed l sl m hf hk hzz =>
    have ho : s.w.oracle s.w.calls = some sl := ho rfl
    have hfr := fresh_of_abs (w := s.w) h.held hf (hr _ rfl)
    rcases baseAllocZeroed_dspec s.w l with ⟨e, ⟨l', s', he, h1, h2⟩, hb⟩ | ⟨q, w', he, hd⟩
    · exfalso
      rw [ho] at h1
      injection h1 with h1
      subst h1
      unfold baseAllocZeroed at hb
      have : baseAlloc l s.w = .ok (some sl, { s.w with calls := s.w.calls + 1, log := .alloc l sl :: s.w.log, held := ⟨sl.addr, sl.len, l⟩ :: s.w.held, mem := setBytes s.w.mem sl.addr sl.len (fun _ => .uninit) }) := by
        unfold baseAlloc; rw [ho]; simp only [hfr, if_true]
      rw [bind_ok this] at hb
      have hw : ∀ w1 : World, (⟨sl.addr, sl.len, l⟩ : BaseBlk) ∈ w1.held →
          writeZeros sl.addr sl.len w1 = .ok ((), { w1 with mem := setBytes w1.mem sl.addr sl.len (fun _ => .raw 0) }) := by
        intro w1 hb1
        unfold writeZeros
        rw [if_pos]
        exact .inr (accessible_of hb1 (Nat.le_refl _) (Nat.le_refl _))
      dsimp only at hb
      rw [bind_ok (hw _ List.mem_cons_self)] at hb
      cases hb
    · cases hd with
      | refused h1 => rw [h1] at ho; cases ho
      | given s1 m' h1 hf1 hm1 hz1 =>
        rw [ho] at h1
        injection h1 with h1
        subst h1
        refine ⟨_, ?_, AnyLike.put (w := s.w) (a := s.a) (sl := sl) (l := l) hok h.held h.oracle h.top h.foreign hfr h.mem hk (m'' := m')
          (fun b hb x g1 g2 => hm1 x (fresh_out hfr hb g1 g2)) (fun i hi => .inr ((hz1 rfl i hi).trans (hzz i hi).symm)) (lg := .alloc l sl :: s.w.log) (n := s.w.calls + 1), rfl, .zeroedOk⟩
        simp only [AKind.step, anyStep]
        rw [St.mem_ok he]
        rfl
  | @resize b p old new sl m hb hp hf hk hc =>
    have hoo : s.w.oracle s.w.calls = some sl := ho rfl
    obtain ⟨rfl, hpa, hps, hpl⟩ := hp
    have hbm : b.blk ∈ s.w.held := h.held.mem_iff.mpr (List.mem_append_left _ (List.mem_map_of_mem hb))
    have hH := erase_map_blk hb h.held
    have hfr := fresh_of_abs (w := { s.w with held := s.w.held.erase b.blk }) hH hf (hr _ rfl)
    have hff := freshOk_facts hfr
    have hfit : b.blk.fits b.blk.addr old = true := by simp [BaseBlk.fits, Owned.blk, hpa, hps, hpl]
    have hfind := h.ok.findFits hbm (f := fun _ => old) (n := old.size) (fun _ => rfl) hfit hz
    have hg1 : ¬ (decide (old.size ≤ new.size) = true ∧ new.size < old.size) := by simp
    have hg2 : ¬ (decide (old.size ≤ new.size) = false ∧ old.size < new.size) := by simp; omega
    have hbase : baseResize (decide (old.size ≤ new.size)) b.addr old new s.w = .ok (some sl, { s.w with
            calls := s.w.calls + 1
            log   := .alloc new sl :: .dealloc b.addr old :: s.w.log
            held  := ⟨sl.addr, sl.len, new⟩ :: s.w.held.erase b.blk
            mem   := setBytes (setBytes s.w.mem b.blk.addr b.blk.len (fun _ => .uninit)) sl.addr sl.len
              (fun i => if i < min old.size new.size then s.w.mem (b.addr + i) else .uninit) }) := by
      unfold baseResize
      rw [show b.addr = b.blk.addr from rfl, hfind]
      dsimp only
      rw [if_neg hg1, if_neg hg2, hoo]
      dsimp only
      rw [if_pos hfr]
    refine ⟨_, ?_, AnyLike.put (w := s.w) (H := s.w.held.erase b.blk) (a := s.a) (sl := sl) (l := new) (h.ok.erased _) hH h.oracle h.top h.foreign hfr
      (fun c hc => h.mem c (List.mem_of_mem_erase hc)) hk
      (m'' := setBytes (setBytes s.w.mem b.blk.addr b.blk.len (fun _ => .uninit)) sl.addr sl.len
              (fun i => if i < min old.size new.size then s.w.mem (b.addr + i) else .uninit))
      (fun c hc x h1 h2 => ?_) (fun i hi => ?_) (lg := .alloc new sl :: .dealloc b.addr old :: s.w.log) (n := s.w.calls + 1), rfl, .resizeOk hb ⟨rfl, hpa, hps, hpl⟩⟩
    · simp only [AKind.step, anyStep]
      rw [St.mem_ok hbase]
      rfl
    · have h3 := h.ok.disjoint_erase hbm hc
      have h4 := hff.2.2.2.2 c hc
      unfold BaseBlk.Disjoint at h3
      rw [setBytes_out (by omega), setBytes_out (by omega)]
    · rw [setBytes_in hi]
      split
      · rename_i hi2
        rw [hc i hi2]
        exact h.mem b hb _ ⟨by omega, by omega⟩
      · exact .inl rfl
  | @growZeroed b p old new sl m hb hp hf hk hc hzz =>
    have hoo : s.w.oracle s.w.calls = some sl := ho rfl
    have hle : old.size ≤ new.size := by cases hl; assumption
    obtain ⟨rfl, hpa, hps, hpl⟩ := hp
    have hbm : b.blk ∈ s.w.held := h.held.mem_iff.mpr (List.mem_append_left _ (List.mem_map_of_mem hb))
    have hH := erase_map_blk hb h.held
    have hfr := fresh_of_abs (w := { s.w with held := s.w.held.erase b.blk }) hH hf (hr _ rfl)
    have hff := freshOk_facts hfr
    have hfit : b.blk.fits b.blk.addr old = true := by simp [BaseBlk.fits, Owned.blk, hpa, hps, hpl]
    have hfind := h.ok.findFits hbm (f := fun _ => old) (n := old.size) (fun _ => rfl) hfit hz
    have hbase : anyGrowZeroed b.addr old new s.w = .ok (some sl, { s.w with
            calls := s.w.calls + 1
            log   := .alloc new sl :: .dealloc b.addr old :: s.w.log
            held  := ⟨sl.addr, sl.len, new⟩ :: s.w.held.erase b.blk
            mem   := setBytes (setBytes (setBytes s.w.mem b.blk.addr b.blk.len (fun _ => .uninit)) sl.addr sl.len
              (fun i => if i < min old.size new.size then s.w.mem (b.addr + i) else .uninit)) (sl.addr + old.size) (sl.len - old.size) (fun _ => .raw 0) }) := by
      unfold anyGrowZeroed baseResize
      rw [show b.addr = b.blk.addr from rfl, hfind]
      dsimp only
      rw [if_neg (by simp; omega), if_neg (by simp), hoo]
      dsimp only
      rw [if_pos hfr]
    refine ⟨_, ?_, AnyLike.put (w := s.w) (H := s.w.held.erase b.blk) (a := s.a) (sl := sl) (l := new) (h.ok.erased _) hH h.oracle h.top h.foreign hfr
      (fun c hc => h.mem c (List.mem_of_mem_erase hc)) hk
      (m'' := setBytes (setBytes (setBytes s.w.mem b.blk.addr b.blk.len (fun _ => .uninit)) sl.addr sl.len
              (fun i => if i < min old.size new.size then s.w.mem (b.addr + i) else .uninit)) (sl.addr + old.size) (sl.len - old.size) (fun _ => .raw 0))
      (fun c hc x h1 h2 => ?_) (fun i hi => ?_) (lg := .alloc new sl :: .dealloc b.addr old :: s.w.log) (n := s.w.calls + 1), rfl, .growZeroedOk hb ⟨rfl, hpa, hps, hpl⟩⟩
    · simp only [AKind.step, anyStep]
      rw [St.mem_ok hbase]
      rfl
    · have h3 := h.ok.disjoint_erase hbm hc
      have h4 := hff.2.2.2.2 c hc
      have := hff.2.2.1
      unfold BaseBlk.Disjoint at h3
      rw [setBytes_out (by omega), setBytes_out (by omega), setBytes_out (by omega)]
    · by_cases hi2 : i < old.size
      · rw [setBytes_out (by omega), setBytes_in hi, if_pos (by omega), hc i hi2]
        exact h.mem b hb _ ⟨by omega, by omega⟩
      · right
        rw [hzz i (by omega) hi]
        obtain ⟨j, rfl⟩ : ∃ j, i = old.size + j := ⟨i - old.size, by omega⟩
        rw [← Nat.add_assoc, setBytes_in (by omega)]
  | @refused _ m hop hk =>
    have ho : s.w.oracle s.w.calls = none := ho hop
    have like : ∀ lg, AnyLike s0 ⟨{ s.w with calls := s.w.calls + 1, log := lg }, s.a⟩ ⟨σ.owned, m⟩ := fun lg =>
      ⟨⟨h.ok.top, h.ok.dis, h.ok.rng⟩, h.held, fun b hb x hx => by show s.w.mem x = _ ∨ s.w.mem x = m x; rw [hk b hb x hx]; exact h.mem b hb x hx, h.oracle, h.top, h.foreign⟩
    have hbl : ∀ l, baseAlloc l s.w = .ok (none, { s.w with calls := s.w.calls + 1, log := .refused l :: s.w.log }) := by
      intro l; unfold baseAlloc; rw [ho]
    have hre : ∀ g b old new, b ∈ σ.owned → b.Fits b.addr old → 0 < old.size → g = decide (old.size ≤ new.size) →
        baseResize g b.addr old new s.w = .ok (none, { s.w with calls := s.w.calls + 1, log := .refused new :: s.w.log }) := by
      intro g b old new hb hf hz hg
      have hbm : b.blk ∈ s.w.held := h.held.mem_iff.mpr (List.mem_append_left _ (List.mem_map_of_mem hb))
      have hfit : b.blk.fits b.blk.addr old = true := by simp [BaseBlk.fits, Owned.blk, hf.2.1, hf.2.2.1, hf.2.2.2]
      have hfind := h.ok.findFits hbm (f := fun _ => old) (n := old.size) (fun _ => rfl) hfit hz
      unfold baseResize
      rw [show b.addr = b.blk.addr from rfl, hfind, hg]
      dsimp only
      rw [if_neg (by simp), if_neg (by simp; omega), ho]
    cases hl with
    | @allocate l hv =>
      refine ⟨_, ?_, like (.refused l :: s.w.log), rfl, .allocErr⟩
      simp only [AKind.step, anyStep]
      rw [St.mem_ok (hbl l)]
      rfl
    | @allocateZeroed l hv =>
      refine ⟨_, ?_, like (.refused l :: s.w.log), rfl, .zeroedErr⟩
      simp only [AKind.step, anyStep]
      have : baseAllocZeroed l s.w = .ok (none, { s.w with calls := s.w.calls + 1, log := .refused l :: s.w.log }) := by
        unfold baseAllocZeroed; rw [bind_ok (hbl l)]; rfl
      rw [St.mem_ok this]
      rfl
    | @resize b p old new hb hf hv =>
      have hpa := hf.1
      subst hpa
      refine ⟨_, ?_, like (.refused new :: s.w.log), rfl, .resizeErr⟩
      simp only [AKind.step, anyStep]
      rw [St.mem_ok (hre _ b old new hb hf hz rfl)]
      rfl
    | @growZeroed b p old new hb hf hv hle =>
      have hpa := hf.1
      subst hpa
      refine ⟨_, ?_, like (.refused new :: s.w.log), rfl, .growZeroedErr⟩
      simp only [AKind.step, anyStep]
      have : anyGrowZeroed b.addr old new s.w = .ok (none, { s.w with calls := s.w.calls + 1, log := .refused new :: s.w.log }) := by
        unfold anyGrowZeroed
        rw [hre true b old new hb hf hz (by simpa using hle)]
      rw [St.mem_ok this]
      rfl
    | deallocate => cases hop
    | reset => cases hop
    | resetFinal => cases hop
    | write => cases hop
  | @deallocate b p n m hb hp hk =>
    obtain ⟨rfl, hp1, hp2⟩ := hp
    have hbm : b.blk ∈ s.w.held := h.held.mem_iff.mpr (List.mem_append_left _ (List.mem_map_of_mem hb))
    have hfit : b.blk.fits b.blk.addr ⟨n, b.blk.req.align⟩ = true := by simp [BaseBlk.fits, Owned.blk, hp1, hp2]
    have hfind := h.ok.findFits hbm (f := fun c => ⟨n, c.req.align⟩) (n := n) (fun _ => rfl) hfit hz
    have hfind2 := h.ok.findFits hbm (f := fun _ => ⟨n, b.blk.req.align⟩) (n := n) (fun _ => rfl) hfit hz
    have hH := erase_map_blk hb h.held
    have hout : ∀ c ∈ s.w.held.erase b.blk, ∀ x, c.addr ≤ x → x < c.addr + c.len →
        setBytes s.w.mem b.blk.addr b.blk.len (fun _ => .uninit) x = s.w.mem x := by
      intro c hc x h1 h2
      have h3 := h.ok.disjoint_erase hbm hc
      unfold BaseBlk.Disjoint at h3
      rw [setBytes_out (by omega)]
    have hbase : anyDealloc b.addr n s.w = .ok ((), { s.w with
      held := s.w.held.erase b.blk
      log  := .dealloc b.addr ⟨n, b.blk.req.align⟩ :: s.w.log
      mem  := setBytes s.w.mem b.blk.addr b.blk.len (fun _ => .uninit) }) := by
      unfold anyDealloc
      rw [show b.addr = b.blk.addr from rfl, hfind]
      dsimp only
      unfold baseDealloc
      rw [hfind2]
    refine ⟨⟨{ s.w with
      held := s.w.held.erase b.blk
      log  := .dealloc b.addr ⟨n, b.blk.req.align⟩ :: s.w.log
      mem  := setBytes s.w.mem b.blk.addr b.blk.len (fun _ => .uninit) }, s.a⟩, ?_, ⟨h.ok.erased' _, hH, fun c hc x hx => ?_, h.oracle, h.top, fun f hf x h1 h2 => ?_⟩, rfl, .deallocate hb ⟨rfl, hp1, hp2⟩⟩
    · simp only [AKind.step, anyStep]
      rw [St.mem_ok hbase]
    · have hcm : c.blk ∈ s.w.held.erase b.blk := hH.mem_iff.mpr (List.mem_append_left _ (List.mem_map_of_mem hc))
      show setBytes s.w.mem b.blk.addr b.blk.len (fun _ => .uninit) x = _ ∨ setBytes s.w.mem b.blk.addr b.blk.len (fun _ => .uninit) x = m x
      rw [hout c.blk hcm x hx.1 hx.2, hk c hc x hx]
      exact h.mem c (List.mem_of_mem_erase hc) x hx
    · show setBytes s.w.mem b.blk.addr b.blk.len (fun _ => .uninit) x = _
      rw [hout f (hH.mem_iff.mpr (List.mem_append_right _ hf)) x h1 h2]
      exact h.foreign f hf x h1 h2
  | @reset m =>
    exact ⟨_, rfl, AnyLike.reset' h0 h m, rfl, .reset⟩
  | @resetFinal m =>
    exact ⟨_, rfl, AnyLike.reset' h0 h m, rfl, .resetFinal⟩
  | @write b x v m hb hx hv hk =>
    refine ⟨_, rfl, ⟨⟨h.ok.top, h.ok.dis, h.ok.rng⟩, h.held, fun c hc y hy => ?_, h.oracle, h.top, fun f hf y h1 h2 => ?_⟩, rfl, .write⟩
    · by_cases hyx : y = x
      · subst hyx
        right
        show setBytes s.w.mem y 1 (fun _ => v) y = m y
        rw [hv]
        simp [setBytes]
      · show setBytes s.w.mem x 1 (fun _ => v) y = _ ∨ setBytes s.w.mem x 1 (fun _ => v) y = _
        rw [setBytes_out (by omega)]
        show _ ∨ _ = m y
        rw [hk c hc y hy hyx]
        exact h.mem c hc y hy
    · have hne : y ≠ x := by
        rintro rfl
        have hd := (h.held.pairwise_iff (fun hxy => BaseBlk.Disjoint.symm' hxy)).mp h.ok.dis
        have := (List.pairwise_append.mp hd).2.2 b.blk (List.mem_map_of_mem hb) f hf
        have h3 := hx.1; have h4 := hx.2
        simp only [BaseBlk.Disjoint, Owned.blk] at this
        omega
      show setBytes s.w.mem x 1 (fun _ => v) y = _
      rw [setBytes_out (by omega)]
      exact h.foreign f hf y h1 h2

theorem AbsWithin.any {s0 : St} {m : Nat → Byte} {tr σ} (h0 : HeldOK s0.w) (h : AbsWithin s0.w.top s0.w.held ⟨[], m⟩ tr σ)
    (ho : ∀ n a, (answersIn tr)[n]? = some a → s0.w.oracle (s0.w.calls + n) = a) :
    ∃ s, AnyRun (.any false false s0.w.held) s0 tr s σ.owned ∧ AnyLike s0 s σ ∧ s.w.calls = s0.w.calls + (answersIn tr).length := by
  induction h with
  | nil => exact ⟨s0, .nil, ⟨h0, .refl _, (fun _ hb => nomatch hb), rfl, rfl, SameIn.refl _ _⟩, rfl⟩
  | @snoc tr σ op r σ' h hl hz hs hr ih =>
    rw [answersIn_append] at ho
    obtain ⟨s, g1, g2, g3⟩ := ih fun n a hn => ho n a (by
      rw [List.getElem?_append_left (by have := List.getElem?_eq_some_iff.mp hn; exact this.1)]; exact hn)
    obtain ⟨s', e1, e2, e3, e4⟩ := g2.step h0 hl hz hs hr (fun hq => by
      rw [g2.oracle, g3]
      refine ho _ _ ?_
      rw [List.getElem?_append_right (Nat.le_refl _), Nat.sub_self]
      simp [answersIn, hq])
    refine ⟨s', g1.snoc hl hz e1 e4, e2, ?_⟩
    rw [e3, g3, answersIn_append]
    by_cases hq : op.requests = true <;> simp [answersIn, hq] <;> omega

/-- C88: every history that the documentation of `Allocator` allows (with blocks of at least one byte given back or resized, and answers inside the address
space and apart from the blocks of others) is a history of the allocator assumed in C82, with the same calls and answers, for suitable answers of its
oracle. In the end the callers have the same blocks, and each byte of them is the same, or is one that the assumed allocator leaves undetermined. Others'
blocks are untouched. -/
theorem C88_every {w : World} {a : BA} {m : Nat → Byte} {tr σ} (h0 : HeldOK w) (h : AbsWithin w.top w.held ⟨[], m⟩ tr σ) :
    ∃ o s, AnyRun (.any false false w.held) ⟨{ w with oracle := o }, a⟩ tr s σ.owned ∧
      (∀ b ∈ σ.owned, ∀ x, b.Has x → s.w.mem x = .uninit ∨ s.w.mem x = σ.mem x) ∧
      ∀ f ∈ w.held, f ∈ s.w.held ∧ ∀ x, f.addr ≤ x → x < f.addr + f.len → s.w.mem x = w.mem x := by
  let o : Nat → Option Slice := fun n => ((answersIn tr)[n - w.calls]?).getD none
  obtain ⟨s, g1, g2, _⟩ := AbsWithin.any (s0 := ⟨{ w with oracle := o }, a⟩) (m := m) (tr := tr) (σ := σ) ⟨h0.top, h0.dis, h0.rng⟩ h (fun n x hn => by
    show ((answersIn tr)[w.calls + n - w.calls]?).getD none = x
    rw [Nat.add_sub_cancel_left, hn]
    rfl)
  exact ⟨o, s, g1, g2.mem, fun f hf => ⟨g2.held.mem_iff.mpr (List.mem_append_right _ hf), g2.foreign f hf⟩⟩

theorem any_zeroed {e kp : Bool} {F : List BaseBlk} {s s' : St} {l : Layout} {blk : Slice} (hs : anyStep e kp F s (.allocateZeroed l) = .ok (.block blk, s')) :
    ∀ i, i < blk.len → s'.w.mem (blk.addr + i) = .raw 0 := by
  simp only [anyStep] at hs
  rcases baseAllocZeroed_dspec s.w l with ⟨_, _, he⟩ | ⟨r, w', he, hr⟩
  · rw [St.mem_err he] at hs; cases hs
  · rw [St.mem_ok he] at hs
    injection hs with hs
    injection hs with h1 h2
    subst h2
    cases hr with
    | refused => cases h1
    | given sl m' ho hf hm hz =>
      injection h1 with h1
      subst h1
      obtain ⟨t1, t2, t3, t4⟩ := trim_facts (exact := e) (freshOk_facts hf).2.2.1
      intro i hi
      rw [t1]
      exact hz rfl i (Nat.lt_of_lt_of_le hi t3)

theorem any_grow_zeroed {e kp : Bool} {F : List BaseBlk} {s s' : St} {p : Nat} {old new : Layout} {blk : Slice}
    (hs : anyStep e kp F s (.growZeroed p old new) = .ok (.block blk, s')) :
    ∀ i, old.size ≤ i → i < blk.len → s'.w.mem (blk.addr + i) = .raw 0 := by
  simp only [anyStep] at hs
  cases he : anyGrowZeroed p old new s.w with
  | error _ => rw [St.mem_err he] at hs; cases hs
  | ok q =>
    obtain ⟨r, w'⟩ := q
    rw [St.mem_ok he] at hs
    injection hs with hs
    injection hs with h1 h2
    subst h2
    cases r with
    | none => cases h1
    | some sl =>
      injection h1 with h1
      subst h1
      unfold anyGrowZeroed at he
      cases hb : baseResize true p old new s.w with
      | error _ => rw [hb] at he; cases he
      | ok q =>
        obtain ⟨r1, w1⟩ := q
        rw [hb] at he
        cases r1 with
        | none => cases he
        | some sl1 =>
          injection he with he
          injection he with h1 h2
          injection h1 with h1
          subst h1 h2
          have hfr : new.size ≤ sl1.len := by
            unfold baseResize at hb
            repeat' split at hb
            all_goals cases hb
            rename_i hfr
            exact (freshOk_facts hfr).2.2.1
          obtain ⟨t1, t2, t3, t4⟩ := trim_facts (exact := e) hfr
          intro i h1 h2
          rw [t1]
          obtain ⟨j, rfl⟩ : ∃ j, i = old.size + j := ⟨i - old.size, by omega⟩
          show setBytes w1.mem (sl1.addr + old.size) (sl1.len - old.size) (fun _ => .raw 0) (sl1.addr + (old.size + j)) = .raw 0
          rw [← Nat.add_assoc, setBytes_in (by omega)]

theorem AnyInv.fresh {s0 s : St} {L : List Owned} {blk : Slice} {l : Layout} (h : AnyInv s0 s (Owned.of blk l :: L)) : FreshFor L l blk := by
  obtain ⟨d, hd, hc⟩ := h.get List.mem_cons_self
  have h1 := h.held.rng d hd
  have h2 := h.held.top
  have h3 := hc.addr; have h4 := hc.len; have h5 := hc.size
  simp only [Owned.of] at h3 h4 h5
  refine ⟨by omega, hc.al, h5, by omega, fun b hb x hx => (List.pairwise_cons.mp h.apart).1 b hb x ⟨hx.2, hx.1⟩⟩

theorem AnyInv.absStep {s0 s s' : St} {L L' : List Owned} {e kp : Bool} {op : Op} {r : Resp} (h0 : HeldOK s0.w) (h : AnyInv s0 s L) (hl : Legal L op)
    (hz : op.WithBytes) (hs : anyStep e kp s0.w.held s op = .ok (r, s')) (ha : After L op r L') :
    AnyInv s0 s' L' ∧ AbsStep ⟨L, s.w.mem⟩ op r ⟨L', s'.w.mem⟩ := by
  cases hl with
  | @allocate l hv =>
    rcases h.allocate hv e kp false s0.w.held with ⟨e', _, he⟩ | ⟨o, s1, e1, e2, e3, _, e4, e5⟩
    · rw [show anyStep e kp s0.w.held s (.allocate l) = _ from he] at hs; cases hs
    · rw [show anyStep e kp s0.w.held s (.allocate l) = _ from e1] at hs
      injection hs with hs
      injection hs with h1 h2
      subst h2
      cases ha with
      | @allocOk _ blk =>
        cases o with
        | none => cases h1
        | some b =>
          injection h1 with h1
          subst h1
          exact ⟨(e5 _ rfl).1, .allocate (e5 _ rfl).1.fresh e3⟩
      | allocErr =>
        cases o with
        | some b => cases h1
        | none => exact ⟨e4 rfl, .refused rfl e3⟩
  | @allocateZeroed l hv =>
    have hs0 := hs
    rcases h.allocate hv e kp true s0.w.held with ⟨e', _, he⟩ | ⟨o, s1, e1, e2, e3, _, e4, e5⟩
    · rw [show anyStep e kp s0.w.held s (.allocateZeroed l) = _ from he] at hs; cases hs
    · rw [show anyStep e kp s0.w.held s (.allocateZeroed l) = _ from e1] at hs
      injection hs with hs
      injection hs with h1 h2
      subst h2
      cases ha with
      | @zeroedOk _ blk =>
        cases o with
        | none => cases h1
        | some b =>
          injection h1 with h1
          subst h1
          exact ⟨(e5 _ rfl).1, .allocateZeroed (e5 _ rfl).1.fresh e3 (any_zeroed hs0)⟩
      | zeroedErr =>
        cases o with
        | some b => cases h1
        | none => exact ⟨e4 rfl, .refused rfl e3⟩
  | @resize b p old new hb hf hv =>
    rcases (h.perm (List.perm_cons_erase hb)).resize hf hv hz e kp false (by simp) s0.w.held with ⟨e', _, he⟩ | ⟨q, s1, e1, e2, e3, e4, e5⟩
    · rw [show anyStep e kp s0.w.held s (.resize p old new) = _ from he] at hs; cases hs
    · rw [show anyStep e kp s0.w.held s (.resize p old new) = _ from e1] at hs
      injection hs with hs
      injection hs with h1 h2
      subst h2
      cases ha with
      | @resizeOk b' _ _ _ blk hb' hf' =>
        have hbb : b' = b := h.same (x := p) hb' hb
            ⟨by have := hf'.1; omega, by have := hf'.1; have := hf'.2.2.2; simp only [Op.WithBytes] at hz; omega⟩
            ⟨by have := hf.1; omega, by have := hf.1; have := hf.2.2.2; simp only [Op.WithBytes] at hz; omega⟩
        subst hbb
        cases q with
        | none => cases h1
        | some b1 =>
          injection h1 with h1
          subst h1
          obtain ⟨g1, g2, g3, g4⟩ := e5 _ rfl
          exact ⟨g1, .resize hb hf g1.fresh e3 g4⟩
      | resizeErr =>
        cases q with
        | some b => cases h1
        | none => exact ⟨(e4 rfl).1.perm (List.perm_cons_erase hb).symm, .refused rfl (by rw [(e4 rfl).2]; exact fun _ _ _ _ => rfl)⟩
  | @growZeroed b p old new hb hf hv hle =>
    have hs0 := hs
    rcases (h.perm (List.perm_cons_erase hb)).resize hf hv hz e kp true (fun _ => hle) s0.w.held with ⟨e', _, he⟩ | ⟨q, s1, e1, e2, e3, e4, e5⟩
    · rw [show anyStep e kp s0.w.held s (.growZeroed p old new) = _ from he] at hs; cases hs
    · rw [show anyStep e kp s0.w.held s (.growZeroed p old new) = _ from e1] at hs
      injection hs with hs
      injection hs with h1 h2
      subst h2
      cases ha with
      | @growZeroedOk b' _ _ _ blk hb' hf' =>
        have hbb : b' = b := h.same (x := p) hb' hb
            ⟨by have := hf'.1; omega, by have := hf'.1; have := hf'.2.2.2; simp only [Op.WithBytes] at hz; omega⟩
            ⟨by have := hf.1; omega, by have := hf.1; have := hf.2.2.2; simp only [Op.WithBytes] at hz; omega⟩
        subst hbb
        cases q with
        | none => cases h1
        | some b1 =>
          injection h1 with h1
          subst h1
          obtain ⟨g1, g2, g3, g4⟩ := e5 _ rfl
          exact ⟨g1, .growZeroed hb hf g1.fresh e3 (fun i hi => g4 i (by omega)) (any_grow_zeroed hs0)⟩
      | growZeroedErr =>
        cases q with
        | some b => cases h1
        | none => exact ⟨(e4 rfl).1.perm (List.perm_cons_erase hb).symm, .refused rfl (by rw [(e4 rfl).2]; exact fun _ _ _ _ => rfl)⟩
  | @deallocate b p n hb hf =>
    obtain ⟨rfl, f1, f2⟩ := hf
    obtain ⟨w', e1, e2, e3, e4⟩ := (h.perm (List.perm_cons_erase hb)).deallocate f1 f2 hz
    simp only [anyStep] at hs
    rw [St.mem_ok e1] at hs
    injection hs with hs
    injection hs with h1 h2
    subst h1 h2
    cases ha with
    | @deallocate b' _ _ hb' hf' =>
      have hbb : b' = b := h.same (x := b.addr) hb' hb
        ⟨by have := hf'.1; omega, by have := hf'.1; have := hf'.2.2; simp only [Op.WithBytes] at hz; omega⟩
        ⟨by omega, by simp only [Op.WithBytes] at hz; omega⟩
      subst hbb
      exact ⟨e4, .deallocate hb ⟨rfl, f1, f2⟩ e3⟩
  | reset =>
    cases ha
    refine ⟨?_, .reset⟩
    simp only [anyStep] at hs
    split at hs
    · cases hs
      exact h.sublist (List.nil_sublist _)
    · cases hs
      exact h.reset h0 fun f hf x h1 h2 => if_pos (List.any_eq_true.mpr ⟨f, hf, by simp only [decide_eq_true_eq]; exact ⟨h1, h2⟩⟩)
  | resetFinal =>
    cases ha
    refine ⟨?_, .resetFinal⟩
    simp only [anyStep] at hs
    split at hs
    · cases hs
      exact h.sublist (List.nil_sublist _)
    · cases hs
      exact h.reset h0 fun f hf x h1 h2 => if_pos (List.any_eq_true.mpr ⟨f, hf, by simp only [decide_eq_true_eq]; exact ⟨h1, h2⟩⟩)
  | @write b x v hb hx =>
    cases ha
    cases hs
    refine ⟨h.congr rfl rfl rfl fun f hf y h1 h2 => ?_, .write hb hx ?_ fun c hc y hy hne => ?_⟩
    · have := h.away hb hf hx
      show setBytes s.w.mem x 1 (fun _ => v) y = s.w.mem y
      rw [setBytes_out (by omega)]
    · show setBytes s.w.mem x 1 (fun _ => v) x = v
      simp [setBytes]
    · show setBytes s.w.mem x 1 (fun _ => v) y = s.w.mem y
      rw [setBytes_out (by omega)]

/-- C88: conversely, every history of the allocator assumed in C82, of whatever kind, is one the documentation allows. -/
theorem C88_only {s0 s : St} {e kp : Bool} {tr L} (h0 : HeldOK s0.w) (h : AnyRun (.any e kp s0.w.held) s0 tr s L) :
    AbsRun ⟨[], s0.w.mem⟩ tr ⟨L, s.w.mem⟩ := by
  suffices AnyInv s0 s L ∧ AbsRun ⟨[], s0.w.mem⟩ tr ⟨L, s.w.mem⟩ from this.2
  induction h with
  | nil => exact ⟨⟨h0, rfl, rfl, ⟨[], [], .refl _, (fun _ hp => nomatch hp), .refl _⟩, SameIn.refl _ _⟩, .nil⟩
  | snoc h hl hz hs ha ih =>
    obtain ⟨g1, g2⟩ := AnyInv.absStep h0 ih.1 hl hz hs ha
    exact ⟨g1, ih.2.snoc g2⟩

/-- Where blocks lie. -/
theorem Reach.range {s0 s' : St} {L' : List Owned} (h' : Reach s0 s' L') (ht : s0.w.top ≤ ISIZE) {sl : Slice} {l : Layout} (hmem : Owned.of sl l ∈ L') :
    sl.len < ISIZE ∧ sl.addr + sl.len < s0.w.top ∧
      ∀ f ∈ s0.w.held, ∀ x, ¬ ((f.addr ≤ x ∧ x < f.addr + f.len) ∧ sl.addr ≤ x ∧ x < sl.addr + sl.len) := by
  obtain ⟨_, _, h3, B, hB, _, h4, h5⟩ := C02_layout_and_memory h' hmem
  obtain ⟨cs, hi⟩ := h'.inv
  have hp := hi.arena.held.dis
  rw [(C02_held h').pairwise_iff (fun h => (BaseBlk.Disjoint.symm h))] at hp
  have hr := hi.arena.held.rng B ((C02_held h').mem_iff.mpr (List.mem_append_left _ hB))
  have htop : s'.w.top = s0.w.top := hi.top
  simp only [Owned.of] at h3 h4 h5
  refine ⟨by omega, by omega, fun f hf x hx => ?_⟩
  have := (List.pairwise_append.mp hp).2.2 B hB f hf
  simp only [BaseBlk.Disjoint] at this
  omega

/-- Histories of a `BlinkAlloc` are histories the documentation allows, answered with memory below `top` and apart from blocks of others. -/
theorem Run.within {s0 s : St} {tr} {L : List Owned} (h0 : Start s0) (ht : s0.w.top ≤ ISIZE) (h : Run s0 [] tr s L) (hz : ∀ e ∈ tr, e.1.WithBytes) :
    AbsWithin s0.w.top s0.w.held ⟨[], s0.w.mem⟩ tr ⟨L, s.w.mem⟩ := by
  induction h with
  | nil => exact .nil
  | @snoc tr s L op r s' L' h hl hs ha ih =>
    refine .snoc (σ := ⟨L, s.w.mem⟩) (ih fun e he => hz e (List.mem_append_left _ he)) hl
      (hz (op, r) (List.mem_append_right _ List.mem_cons_self)) (C84_step ⟨h0, _, h⟩ hl hs ha) fun sl hr => ?_
    have h' : Reach s0 s' L' := ⟨h0, _, h.snoc hl hs ha⟩
    have hmem : ∃ l, Owned.of sl l ∈ L' := by
      subst hr
      cases ha <;> exact ⟨_, List.mem_cons_self⟩
    obtain ⟨l, hmem⟩ := hmem
    exact h'.range ht hmem

/-- C88: so a `BlinkAlloc` is one of the allocators assumed: every history of one is a history of the assumed allocator, given answers to choose. -/
theorem C88_blink_alloc {s0 s : St} {tr} {L : List Owned} (h0 : Start s0) (ht : s0.w.top ≤ ISIZE) (h : Run s0 [] tr s L) (hz : ∀ e ∈ tr, e.1.WithBytes) :
    ∃ o s', AnyRun (.any false false s0.w.held) ⟨{ s0.w with oracle := o }, s0.a⟩ tr s' L ∧
      ∀ b ∈ L, ∀ x, b.Has x → s'.w.mem x = .uninit ∨ s'.w.mem x = s.w.mem x := by
  obtain ⟨o, s', g1, g2, _⟩ := C88_every (a := s0.a) h0.world (h.within h0 ht hz)
  exact ⟨o, s', g1, g2⟩

/-- The hypotheses are met by a history with four live blocks, a move and a zeroed block, beside a block of others. -/
theorem any_demo : ∃ s tr, Start (demoStart [512, 2048]) ∧ Run (demoStart [512, 2048]) [] tr s demoLedger ∧ ∀ e ∈ tr, e.1.WithBytes := by
  have h : (execAll (demoStart [512, 2048]) [] demoOps).map (fun x => x.2.2) = some demoLedger := by decide +kernel
  cases he : execAll (demoStart [512, 2048]) [] demoOps with
  | none => rw [he] at h; cases h
  | some x =>
    obtain ⟨rs, s, L⟩ := x
    rw [he] at h
    simp only [Option.map_some, Option.some.injEq] at h
    subst h
    refine ⟨s, _, demoStart_start _ _ (by decide), execAll_sound he, fun e hm => ?_⟩
    have h1 : ∀ op ∈ demoOps, op.WithBytes := by decide
    exact h1 _ (List.of_mem_zip (show (e.1, e.2) ∈ _ from hm)).1

example : ∃ s0 s tr L, Start s0 ∧ s0.w.top ≤ ISIZE ∧ Run s0 [] tr s L ∧ (∀ e ∈ tr, e.1.WithBytes) ∧ s0.w.held ≠ [] ∧ L.length = 4 := by
  obtain ⟨s, tr, h0, h, hz⟩ := any_demo
  exact ⟨_, s, tr, _, h0, by decide, h, hz, by decide, rfl⟩

/-- The hypotheses of `C88_every` are met by that history. -/
example : ∃ w tr σ, HeldOK w ∧ AbsWithin w.top w.held ⟨[], w.mem⟩ tr σ ∧ w.held ≠ [] ∧ σ.owned.length = 4 := by
  obtain ⟨s, tr, h0, h, hz⟩ := any_demo
  exact ⟨_, tr, _, h0.world, h.within h0 (by decide) hz, by decide, rfl⟩

/-- The hypotheses of `C88_only` are met by a history with four live blocks beside a block of others. -/
example : ∃ s0 s tr L, HeldOK s0.w ∧ AnyRun (.any false false s0.w.held) s0 tr s L ∧ s0.w.held ≠ [] ∧ L.length = 4 := by
  obtain ⟨s, tr, h0, h, hz⟩ := any_demo
  obtain ⟨o, s', h1, _⟩ := C88_blink_alloc h0 (by decide) h hz
  exact ⟨⟨{ (demoStart [512, 2048]).w with oracle := o }, (demoStart [512, 2048]).a⟩, s', tr, _, ⟨h0.world.top, h0.world.dis, h0.world.rng⟩, h1, List.cons_ne_nil _ _, rfl⟩

end Blink
