import Verif.Proofs.Direct
import Verif.Spec.Blink
/-
  An allocator of which nothing is known but its contract: what a caller's blocks are like.
-/
namespace Blink

/-- The caller's block `o` is the allocator's block `d`, or its start. -/
structure Covers (o : Owned) (d : BaseBlk) : Prop where
  addr : d.addr = o.addr
  req : d.req = ⟨o.size, o.align⟩
  size : o.size ≤ o.len
  len : o.len ≤ d.len
  al : o.addr % o.align = 0
  pow : ∃ k, o.align = 2 ^ k

/-- The blocks `F` have the same contents in `m'` as in `m`. -/
def SameIn (F : List BaseBlk) (m m' : Nat → Byte) : Prop := ∀ f ∈ F, ∀ x, f.addr ≤ x → x < f.addr + f.len → m' x = m x

theorem SameIn.refl (F : List BaseBlk) (m : Nat → Byte) : SameIn F m m := fun _ _ _ _ _ => rfl

/-- The callers own `L`; the allocator has handed out blocks for these (and maybe others), apart from those held at the start. -/
structure AnyInv (s0 s : St) (L : List Owned) : Prop where
  held : HeldOK s.w
  oracle : s.w.oracle = s0.w.oracle
  top : s.w.top = s0.w.top
  own : ∃ (P : List (Owned × BaseBlk)) (X : List Owned), (L ++ X).Perm (P.map Prod.fst) ∧ (∀ p ∈ P, Covers p.1 p.2) ∧
    s.w.held.Perm (P.map Prod.snd ++ s0.w.held)
  mem : SameIn s0.w.held s0.w.mem s.w.mem

theorem AnyInv.perm {s0 s L L'} (h : AnyInv s0 s L) (hp : L.Perm L') : AnyInv s0 s L' :=
  { h with own := let ⟨P, X, h1, h2, h3⟩ := h.own; ⟨P, X, (hp.symm.append_right X).trans h1, h2, h3⟩ }

theorem AnyInv.sublist {s0 s L L'} (h : AnyInv s0 s L) (hs : L'.Sublist L) : AnyInv s0 s L' := by
  obtain ⟨P, X, h1, h2, h3⟩ := h.own
  obtain ⟨R, hR⟩ := hs.exists_perm_append
  refine { h with own := ⟨P, R ++ X, ?_, h2, h3⟩ }
  rw [← List.append_assoc]
  exact (hR.symm.append_right X).trans h1

/-- Only contents changed. -/
theorem AnyInv.congr {s0 s s' L} (h : AnyInv s0 s L) (hh : s'.w.held = s.w.held) (ht : s'.w.top = s.w.top)
    (ho : s'.w.oracle = s.w.oracle) (hm : SameIn s0.w.held s.w.mem s'.w.mem) : AnyInv s0 s' L where
  held := ⟨by rw [ht]; exact h.held.top, by rw [hh]; exact h.held.dis, by rw [hh, ht]; exact h.held.rng⟩
  oracle := ho.trans h.oracle
  top := ht.trans h.top
  own := by rw [hh]; exact h.own
  mem := fun f hf x h1 h2 => (hm f hf x h1 h2).trans (h.mem f hf x h1 h2)

theorem AnyInv.get {s0 s L} (h : AnyInv s0 s L) {o : Owned} (ho : o ∈ L) : ∃ d ∈ s.w.held, Covers o d := by
  obtain ⟨P, X, h1, h2, h3⟩ := h.own
  obtain ⟨p, hp, rfl⟩ := List.mem_map.mp (h1.mem_iff.mp (List.mem_append_left X ho))
  exact ⟨p.2, h3.mem_iff.mpr (List.mem_append_left _ (List.mem_map.mpr ⟨p, hp, rfl⟩)), h2 p hp⟩

theorem AnyInv.foreign {s0 s L} (h : AnyInv s0 s L) {f : BaseBlk} (hf : f ∈ s0.w.held) : f ∈ s.w.held := by
  obtain ⟨P, X, h1, h2, h3⟩ := h.own
  exact h3.mem_iff.mpr (List.mem_append_right _ hf)

theorem AnyInv.apart {s0 s L} (h : AnyInv s0 s L) : L.Pairwise Owned.Apart := by
  obtain ⟨P, X, h1, h2, h3⟩ := h.own
  have hd := (h3.pairwise_iff (fun hxy => BaseBlk.Disjoint.symm' hxy)).mp h.held.dis
  have hd1 := (List.pairwise_append.mp hd).1
  rw [List.pairwise_map] at hd1
  have hP : (P.map Prod.fst).Pairwise Owned.Apart := by
    rw [List.pairwise_map]
    refine List.Pairwise.imp_of_mem ?_ hd1
    intro p q hp hq hpq x ⟨hx, hy⟩
    have c1 := h2 p hp
    have c2 := h2 q hq
    unfold BaseBlk.Disjoint at hpq
    have := c1.addr; have := c1.len; have := c2.addr; have := c2.len
    have := hx.1; have := hx.2; have := hy.1; have := hy.2
    omega
  have hL := (h1.pairwise_iff (R := Owned.Apart) (fun hxy x hx => hxy x ⟨hx.2, hx.1⟩)).mpr hP
  exact (List.pairwise_append.mp hL).1

theorem AnyInv.acc {s0 s L} (h : AnyInv s0 s L) {o : Owned} (ho : o ∈ L) {a n : Nat}
    (ha : o.addr ≤ a) (hn : a + n ≤ o.addr + o.len) : s.w.accessible a n = true := by
  obtain ⟨d, hd, hc⟩ := h.get ho
  have := hc.addr; have := hc.len
  exact accessible_of hd (by omega) (by omega)

/-- The callers' blocks are apart from those held at the start. -/
theorem AnyInv.away {s0 s L} (h : AnyInv s0 s L) {o : Owned} (ho : o ∈ L) {f : BaseBlk} (hf : f ∈ s0.w.held) {x : Nat} (hx : o.Has x) :
    x < f.addr ∨ f.addr + f.len ≤ x := by
  obtain ⟨P, X, h1, h2, h3⟩ := h.own
  obtain ⟨p, hp, rfl⟩ := List.mem_map.mp (h1.mem_iff.mp (List.mem_append_left X ho))
  have hd := (h3.pairwise_iff (fun hxy => BaseBlk.Disjoint.symm' hxy)).mp h.held.dis
  have := (List.pairwise_append.mp hd).2.2 p.2 (List.mem_map.mpr ⟨p, hp, rfl⟩) f hf
  unfold BaseBlk.Disjoint at this
  have := (h2 p hp).addr; have := (h2 p hp).len
  have := hx.1; have := hx.2
  omega

/-- A block that belongs to nobody else. -/
theorem HeldOK.disjoint_erase {w : World} (h : HeldOK w) {d b : BaseBlk} (hd : d ∈ w.held) (hb : b ∈ w.held.erase d) : d.Disjoint b := by
  have := ((List.perm_cons_erase hd).pairwise_iff (fun hxy => BaseBlk.Disjoint.symm' hxy)).mp h.dis
  exact (List.pairwise_cons.mp this).1 b hb

/-- One block leaves the caller's hands and the allocator's books. -/
theorem AnyInv.take {s0 s L} {o : Owned} (h : AnyInv s0 s (o :: L)) :
    ∃ d ∈ s.w.held, Covers o d ∧ (∀ f ∈ s0.w.held, f ∈ s.w.held.erase d) ∧ ∀ s' : St, s'.w.held = s.w.held.erase d →
      s'.w.top = s.w.top → s'.w.oracle = s.w.oracle → SameIn s0.w.held s.w.mem s'.w.mem → AnyInv s0 s' L := by
  obtain ⟨P, X, h1, h2, h3⟩ := h.own
  obtain ⟨p, hp, hpo⟩ := List.mem_map.mp (h1.mem_iff.mp (List.mem_append_left X List.mem_cons_self))
  subst hpo
  have hP := List.perm_cons_erase hp
  have hm : p.2 ∈ s.w.held := h3.mem_iff.mpr (List.mem_append_left _ (List.mem_map.mpr ⟨p, hp, rfl⟩))
  have h6 : (s.w.held.erase p.2).Perm ((P.erase p).map Prod.snd ++ s0.w.held) := by
    have h4 := h3.trans ((hP.map Prod.snd).append_right _)
    rw [List.map_cons, List.cons_append] at h4
    have h5 := h4.erase p.2
    rw [List.erase_cons_head] at h5
    exact h5
  refine ⟨p.2, hm, h2 p hp, fun f hf => h6.mem_iff.mpr (List.mem_append_right _ hf), fun s' hh ht ho hsm => ?_⟩
  refine ⟨⟨by rw [ht]; exact h.held.top, by rw [hh]; exact h.held.dis.sublist List.erase_sublist, fun b hb => ?_⟩, ho.trans h.oracle,
    ht.trans h.top, ⟨P.erase p, X, ?_, fun q hq => h2 q (List.mem_of_mem_erase hq), ?_⟩,
    fun f hf x g1 g2 => (hsm f hf x g1 g2).trans (h.mem f hf x g1 g2)⟩
  · rw [hh] at hb; rw [ht]; exact h.held.rng b (List.mem_of_mem_erase hb)
  · have h4 := h1.trans (hP.map Prod.fst)
    rw [List.cons_append, List.map_cons] at h4
    exact h4.cons_inv
  · rw [hh]
    exact h6

/-- One block comes into the caller's hands. -/
theorem AnyInv.put {s0 s L} (h : AnyInv s0 s L) {l : Layout} {sl : Slice} {w : World} (hh : w.held = s.w.held) (ht : w.top = s.w.top)
    (hf : freshOk w l sl = true) (hl : l.Valid) {n : Nat} (h1 : l.size ≤ n) (h2 : n ≤ sl.len) {s' : St}
    (hs : s'.w.held = ⟨sl.addr, sl.len, l⟩ :: s.w.held) (ht' : s'.w.top = s.w.top) (ho : s'.w.oracle = s.w.oracle)
    (hsm : SameIn s0.w.held s.w.mem s'.w.mem) : AnyInv s0 s' (⟨sl.addr, n, l.size, l.align⟩ :: L) := by
  obtain ⟨f1, f2, f3, f4, f5⟩ := freshOk_facts hf
  obtain ⟨P, X, g1, g2, g3⟩ := h.own
  refine ⟨⟨by rw [ht']; exact h.held.top, ?_, fun b hb => ?_⟩, ho.trans h.oracle, ht'.trans h.top,
    ⟨(⟨sl.addr, n, l.size, l.align⟩, ⟨sl.addr, sl.len, l⟩) :: P, X, ?_, ?_, ?_⟩,
    fun f hf x g1 g2 => (hsm f hf x g1 g2).trans (h.mem f hf x g1 g2)⟩
  · rw [hs, List.pairwise_cons]
    refine ⟨fun b hb => ?_, h.held.dis⟩
    rw [← hh] at hb
    exact f5 b hb
  · rw [hs] at hb
    rw [ht']
    rcases List.mem_cons.mp hb with rfl | hb
    · rw [ht] at f4; exact ⟨f1, f4⟩
    · exact h.held.rng b hb
  · rw [List.cons_append, List.map_cons]
    exact g1.cons _
  · intro p hp
    rcases List.mem_cons.mp hp with rfl | hp
    · exact ⟨rfl, rfl, h1, h2, f2, hl.1⟩
    · exact g2 p hp
  · rw [hs, List.map_cons, List.cons_append]
    exact g3.cons _

/-- The block looked for is found: blocks with at least one byte cannot share an address. -/
theorem HeldOK.findFits {w : World} (h : HeldOK w) {d : BaseBlk} (hd : d ∈ w.held) {p n : Nat} {f : BaseBlk → Layout}
    (hn : ∀ b, (f b).size = n) (hf : d.fits p (f d) = true) (hp : 0 < n) :
    w.held.find? (fun b => b.fits p (f b)) = some d := by
  cases he : w.held.find? (fun b => b.fits p (f b)) with
  | none =>
    rw [List.find?_eq_none] at he
    exact absurd hf (he d hd)
  | some b =>
    have hb := List.find?_some he
    have hm := List.mem_of_find?_eq_some he
    simp only [BaseBlk.fits, Bool.and_eq_true, decide_eq_true_eq, hn] at hb hf
    rw [h.inj hm hd (x := p) (by omega) (by omega)]

theorem trim_facts {exact : Bool} {l : Layout} {sl : Slice} (h : l.size ≤ sl.len) :
    (trim exact l sl).addr = sl.addr ∧ l.size ≤ (trim exact l sl).len ∧ (trim exact l sl).len ≤ sl.len ∧
    (exact = true → (trim exact l sl).len = l.size) := by
  unfold trim
  split
  · exact ⟨rfl, Nat.le_refl _, h, fun _ => rfl⟩
  · exact ⟨rfl, h, Nat.le_refl _, fun hc => absurd hc (by assumption)⟩

theorem Owned.of_trim {exact : Bool} {l : Layout} {sl : Slice} (h : l.size ≤ sl.len) :
    Owned.of (trim exact l sl) l = ⟨sl.addr, (trim exact l sl).len, l.size, l.align⟩ := by
  unfold Owned.of
  rw [(trim_facts h).1]

/-- Bytes of held blocks are left alone by what touches only a fresh block. -/
theorem fresh_out {w : World} {l : Layout} {sl : Slice} (hf : freshOk w l sl = true) {b : BaseBlk} (hb : b ∈ w.held) {x : Nat}
    (h1 : b.addr ≤ x) (h2 : x < b.addr + b.len) : x < sl.addr ∨ sl.addr + sl.len ≤ x := by
  have := (freshOk_facts hf).2.2.2.2 b hb
  omega

/-- `allocate` and `allocate_zeroed`. -/
theorem AnyInv.alloc {s0 s L} (h : AnyInv s0 s L) {l : Layout} (hl : l.Valid) {z : Bool} {r : Option Slice} {w' : World}
    (hr : DAlloc s.w l z r w') (exact : Bool) :
    w'.debug = s.w.debug ∧ (∀ b ∈ s.w.held, b ∈ w'.held ∧ ∀ x, b.addr ≤ x → x < b.addr + b.len → w'.mem x = s.w.mem x) ∧
    (r = none → AnyInv s0 { s with w := w' } L) ∧
    ∀ sl, r = some sl → AnyInv s0 { s with w := w' } (Owned.of (trim exact l sl) l :: L) ∧ l.size ≤ (trim exact l sl).len ∧
      (exact = true → (trim exact l sl).len = l.size) ∧ (trim exact l sl).addr = sl.addr ∧ (trim exact l sl).len ≤ sl.len ∧
      freshOk s.w l sl = true := by
  cases hr with
  | refused ho => exact ⟨rfl, fun b hb => ⟨hb, fun _ _ _ => rfl⟩, fun _ => h.congr rfl rfl rfl (SameIn.refl _ _), fun sl hc => by cases hc⟩
  | given sl m' ho hf hm hz =>
    refine ⟨rfl, fun b hb => ⟨List.mem_cons_of_mem _ hb, fun x h1 h2 => hm x (fresh_out hf hb h1 h2)⟩, fun hc => (by cases hc), fun sl' hc => ?_⟩
    injection hc with hc
    subst hc
    have f3 := (freshOk_facts hf).2.2.1
    obtain ⟨t1, t2, t3, t4⟩ := trim_facts (exact := exact) f3
    refine ⟨?_, t2, t4, t1, t3, hf⟩
    rw [Owned.of_trim f3]
    exact h.put (w := s.w) rfl rfl hf hl t2 t3 rfl rfl rfl fun f hg x h1 h2 => hm x (fresh_out hf (h.foreign hg) h1 h2)

/-- All blocks but `d` keep their contents. -/
def KeepsBut (w w' : World) (d : BaseBlk) : Prop :=
  ∀ b ∈ w.held.erase d, ∀ x, b.addr ≤ x → x < b.addr + b.len → w'.mem x = w.mem x

theorem KeepsBut.same {w w' : World} {d : BaseBlk} {F : List BaseBlk} (h : KeepsBut w w' d) (hF : ∀ f ∈ F, f ∈ w.held.erase d) :
    SameIn F w.mem w'.mem := fun f hf x h1 h2 => h f (hF f hf) x h1 h2

theorem AnyInv.keepBut {s0 s : St} {L : List Owned} {d : BaseBlk} {w' : World}
    (hd : ∀ s' : St, s'.w.held = s.w.held.erase d → s'.w.top = s.w.top → s'.w.oracle = s.w.oracle →
      SameIn s0.w.held s.w.mem s'.w.mem → AnyInv s0 s' L)
    (hk : KeepsBut s.w w' d) : Keep L s.w.mem w'.mem := by
  intro o' ho' x hx
  have h1 := hd { s with w := { s.w with held := s.w.held.erase d } } rfl rfl rfl (SameIn.refl _ _)
  obtain ⟨d', hd', hc⟩ := h1.get ho'
  have := hc.addr; have := hc.len; have := hx.1; have := hx.2
  exact hk d' hd' x (by omega) (by omega)

/-- `grow`, `shrink` and `grow_zeroed` of the block `d`. -/
inductive AResize (w : World) (d : BaseBlk) (old new : Layout) : Option Slice → World → Prop
  | refused : AResize w d old new none { w with calls := w.calls + 1, log := .refused new :: w.log }
  | given (s : Slice) (m' : Nat → Byte) (lg : List BaseEvent)
      (hf : freshOk { w with held := w.held.erase d } new s = true)
      (hm : ∀ b ∈ w.held.erase d, ∀ x, b.addr ≤ x → x < b.addr + b.len → m' x = w.mem x)
      (hk : ∀ i, i < min old.size new.size → m' (s.addr + i) = w.mem (d.addr + i)) :
      AResize w d old new (some s)
        { w with calls := w.calls + 1, log := lg, held := ⟨s.addr, s.len, new⟩ :: w.held.erase d, mem := m' }

theorem freshOk_erase {w : World} {d : BaseBlk} {l : Layout} {s : Slice} (h : freshOk { w with held := w.held.erase d } l s = false) :
    freshOk w l s = false := by
  cases hf : freshOk w l s with
  | false => rfl
  | true =>
    rw [← h]
    simp only [freshOk, Bool.and_eq_true, decide_eq_true_eq, List.all_eq_true] at hf ⊢
    symm
    rw [← Bool.not_eq_true] at h
    exact absurd (by simp only [freshOk, Bool.and_eq_true, decide_eq_true_eq, List.all_eq_true]; exact
      ⟨hf.1, fun b hb => hf.2 b (List.mem_of_mem_erase hb)⟩) h

theorem Covers.fits {o : Owned} {d : BaseBlk} (h : Covers o d) {p : Nat} {l : Layout} (hf : o.Fits p l) : d.fits p l = true := by
  obtain ⟨f1, f2, f3, f4⟩ := hf
  have := h.addr; have := h.len
  simp only [BaseBlk.fits, Bool.and_eq_true, decide_eq_true_eq, h.req]
  omega

theorem baseResize_any {w : World} (h : HeldOK w) {d : BaseBlk} (hd : d ∈ w.held) {g : Bool} {old new : Layout}
    (hf : d.fits d.addr old = true) (hp : 0 < old.size) (hg : g = decide (old.size ≤ new.size)) :
    (∃ e, BadAnswer w e ∧ baseResize g d.addr old new w = .error e) ∨
    ∃ r w', baseResize g d.addr old new w = .ok (r, w') ∧ AResize w d old new r w' := by
  unfold baseResize
  rw [h.findFits hd (f := fun _ => old) (n := old.size) (fun _ => rfl) hf hp]
  dsimp only
  rw [if_neg (by rintro ⟨h1, h2⟩; rw [hg, decide_eq_true_eq] at h1; omega),
    if_neg (by rintro ⟨h1, h2⟩; rw [hg, decide_eq_false_iff_not] at h1; omega)]
  cases ho : w.oracle w.calls with
  | none => exact .inr ⟨_, _, rfl, .refused⟩
  | some s =>
    dsimp only
    by_cases hfr : freshOk { w with held := w.held.erase d } new s = true
    · rw [if_pos hfr]
      have hff := freshOk_facts hfr
      refine .inr ⟨_, _, rfl, .given s _ _ hfr (fun b hb x h1 h2 => ?_) (fun i hi => ?_)⟩
      · have h3 := h.disjoint_erase hd hb
        have h4 := hff.2.2.2.2 b hb
        unfold BaseBlk.Disjoint at h3
        rw [setBytes_out (by omega), setBytes_out (by omega)]
      · have := hff.2.2.1
        rw [setBytes_in (by omega), if_pos hi]
    · rw [if_neg hfr]
      exact .inl ⟨_, ⟨new, s, rfl, ho, freshOk_erase (by simpa using hfr)⟩, rfl⟩

theorem anyGrowZeroed_any {w : World} (h : HeldOK w) {d : BaseBlk} (hd : d ∈ w.held) {old new : Layout}
    (hf : d.fits d.addr old = true) (hp : 0 < old.size) (hg : old.size ≤ new.size) :
    (∃ e, BadAnswer w e ∧ anyGrowZeroed d.addr old new w = .error e) ∨
    ∃ r w', anyGrowZeroed d.addr old new w = .ok (r, w') ∧ AResize w d old new r w' := by
  unfold anyGrowZeroed
  rcases baseResize_any h hd (g := true) (new := new) hf hp (by simpa using hg) with ⟨e, hb, he⟩ | ⟨r, w', he, hr⟩
  · exact .inl ⟨e, hb, by rw [he]⟩
  · right
    rw [he]
    cases hr with
    | refused => exact ⟨_, _, rfl, .refused⟩
    | given s m' lg hfr hm hk =>
      refine ⟨_, _, rfl, .given s _ lg hfr (fun b hb x h1 h2 => ?_) (fun i hi => ?_)⟩
      · have h4 := (freshOk_facts hfr).2.2.2.2 b hb
        have := (freshOk_facts hfr).2.2.1
        rw [setBytes_out (by omega)]
        exact hm b hb x h1 h2
      · rw [setBytes_out (by omega)]
        exact hk i hi

theorem AnyInv.resized {s0 s L} {o : Owned} (h : AnyInv s0 s (o :: L)) {d : BaseBlk}
    (hfor : ∀ f ∈ s0.w.held, f ∈ s.w.held.erase d)
    (htake : ∀ s' : St, s'.w.held = s.w.held.erase d → s'.w.top = s.w.top → s'.w.oracle = s.w.oracle →
      SameIn s0.w.held s.w.mem s'.w.mem → AnyInv s0 s' L)
    {old new : Layout} (hl : new.Valid) {r : Option Slice} {w' : World} (hr : AResize s.w d old new r w') (exact : Bool) :
    w'.debug = s.w.debug ∧ Keep L s.w.mem w'.mem ∧
    (r = none → AnyInv s0 { s with w := w' } (o :: L) ∧ w'.mem = s.w.mem) ∧
    ∀ sl, r = some sl → AnyInv s0 { s with w := w' } (Owned.of (trim exact new sl) new :: L) ∧ new.size ≤ (trim exact new sl).len ∧
      (exact = true → (trim exact new sl).len = new.size) ∧
      ∀ i, i < min old.size new.size → w'.mem ((trim exact new sl).addr + i) = s.w.mem (d.addr + i) := by
  cases hr with
  | refused => exact ⟨rfl, Keep.refl _ _, fun _ => ⟨h.congr rfl rfl rfl (SameIn.refl _ _), rfl⟩, fun sl hc => by cases hc⟩
  | given sl m' lg hf hm hk =>
    refine ⟨rfl, AnyInv.keepBut htake hm, fun hc => (by cases hc), fun sl' hc => ?_⟩
    injection hc with hc
    subst hc
    have f3 := (freshOk_facts hf).2.2.1
    obtain ⟨t1, t2, t3, t4⟩ := trim_facts (exact := exact) f3
    refine ⟨?_, t2, t4, fun i hi => by rw [t1]; exact hk i hi⟩
    rw [Owned.of_trim f3]
    have h1 := htake { s with w := { s.w with held := s.w.held.erase d } } rfl rfl rfl (SameIn.refl _ _)
    exact h1.put (w := { s.w with held := s.w.held.erase d }) rfl rfl hf hl t2 t3 rfl rfl rfl
      fun f hg x g1 g2 => hm f (hfor f hg) x g1 g2

theorem baseDealloc_any {w : World} (h : HeldOK w) {d : BaseBlk} (hd : d ∈ w.held) {l : Layout}
    (hf : d.fits d.addr l = true) (hp : 0 < l.size) :
    ∃ w', baseDealloc d.addr l w = .ok ((), w') ∧ w'.held = w.held.erase d ∧ w'.top = w.top ∧ w'.oracle = w.oracle ∧
      w'.debug = w.debug ∧ KeepsBut w w' d := by
  unfold baseDealloc
  rw [h.findFits hd (f := fun _ => l) (n := l.size) (fun _ => rfl) hf hp]
  refine ⟨_, rfl, rfl, rfl, rfl, rfl, fun b hb x h1 h2 => ?_⟩
  have h3 := h.disjoint_erase hd hb
  unfold BaseBlk.Disjoint at h3
  dsimp only
  rw [setBytes_out (by omega)]

theorem anyDealloc_any {w : World} (h : HeldOK w) {d : BaseBlk} (hd : d ∈ w.held) {n : Nat}
    (hf : d.fits d.addr ⟨n, d.req.align⟩ = true) (hp : 0 < n) :
    ∃ w', anyDealloc d.addr n w = .ok ((), w') ∧ w'.held = w.held.erase d ∧ w'.top = w.top ∧ w'.oracle = w.oracle ∧
      w'.debug = w.debug ∧ KeepsBut w w' d := by
  unfold anyDealloc
  rw [h.findFits hd (f := fun b => ⟨n, b.req.align⟩) (n := n) (fun _ => rfl) hf hp]
  exact baseDealloc_any h hd hf hp

/-- Two blocks of the caller that share a byte are one. -/
theorem AnyInv.same {s0 s L} (h : AnyInv s0 s L) {o b : Owned} (ho : o ∈ L) (hb : b ∈ L) {x : Nat} (h1 : o.Has x) (h2 : b.Has x) :
    o = b := by
  have hp := h.apart
  clear h
  induction hp with
  | nil => cases ho
  | @cons a l h3 _ ih =>
    rcases List.mem_cons.mp ho with rfl | ho'
    · rcases List.mem_cons.mp hb with rfl | hb'
      · rfl
      · exact absurd ⟨h1, h2⟩ (h3 b hb' x)
    · rcases List.mem_cons.mp hb with rfl | hb
      · exact absurd ⟨h2, h1⟩ (h3 o ho' x)
      · exact ih ho' (by assumption)

theorem AnyInv.reset {s0 s L} (h0 : HeldOK s0.w) (h : AnyInv s0 s L) {m : Nat → Byte} (hm : SameIn s0.w.held s.w.mem m) :
    AnyInv s0 { s with w := { s.w with held := s0.w.held, mem := m } } [] where
  held := ⟨h.held.top, h0.dis, fun b hb => by
    have := h0.rng b hb
    rw [show s.w.top = s0.w.top from h.top]
    exact this⟩
  oracle := h.oracle
  top := h.top
  own := ⟨[], [], List.Perm.refl _, (by intro p hp; cases hp), List.Perm.refl _⟩
  mem := fun f hf x h1 h2 => (hm f hf x h1 h2).trans (h.mem f hf x h1 h2)

end Blink
