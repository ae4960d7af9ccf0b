import Verif.Spec.SyncZero
import Verif.Proofs.ProxyStep
import Verif.Proofs.EnvRun
/-
  The invariant of a shared allocator whose threads also execute the default methods `allocate_zeroed` and `grow_zeroed`: the system without
  them is in a reachable state, in which the default methods own the blocks they work on.
-/
namespace Blink

/-! ### Dividing a list of blocks among threads -/

/-- `L` consists of `A` and of the blocks `f t` of finitely many threads `t`. -/
def Parts (L A : List Owned) (f : Nat → List Owned) : Prop :=
  ∃ ts : List Nat, ts.Nodup ∧ (∀ t, t ∉ ts → f t = []) ∧ L.Perm (A ++ ts.flatMap f)

theorem flatMap_agree {f g : Nat → List Owned} {l : List Nat} (h : ∀ u ∈ l, g u = f u) : l.flatMap g = l.flatMap f := by
  induction l with
  | nil => rfl
  | cons a l ih =>
    rw [List.flatMap_cons, List.flatMap_cons, h a List.mem_cons_self, ih fun u hu => h u (List.mem_cons_of_mem _ hu)]

theorem Parts.split {L A f} (h : Parts L A f) (t : Nat) : ∃ rest, L.Perm (A ++ (f t ++ rest)) ∧ (∀ u, u ≠ t → ∀ b ∈ f u, b ∈ rest) ∧
    ∀ {L' A' g}, (∀ u, u ≠ t → g u = f u) → L'.Perm (A' ++ (g t ++ rest)) → Parts L' A' g := by
  obtain ⟨ts, hnd, hout, hp⟩ := h
  have hnd' : (ts.erase t).Nodup := hnd.erase t
  have hnt : t ∉ ts.erase t := hnd.not_mem_erase
  refine ⟨(ts.erase t).flatMap f, ?_, ?_, ?_⟩
  · refine hp.trans (List.Perm.append_left _ ?_)
    by_cases ht : t ∈ ts
    · exact ((List.perm_cons_erase ht).flatMap_right f).trans (by rw [List.flatMap_cons])
    · rw [List.erase_of_not_mem ht, hout t ht]; exact .refl _
  · intro u hu b hb
    by_cases hm : u ∈ ts
    · exact List.mem_flatMap.mpr ⟨u, (List.mem_erase_of_ne hu).mpr hm, hb⟩
    · rw [hout u hm] at hb; cases hb
  · intro L' A' g hg hp'
    refine ⟨t :: ts.erase t, List.nodup_cons.mpr ⟨hnt, hnd'⟩, ?_, ?_⟩
    · intro u hu
      rw [List.mem_cons, not_or] at hu
      rw [hg u hu.1]
      exact hout u fun hm => hu.2 ((List.mem_erase_of_ne hu.1).mpr hm)
    · rw [List.flatMap_cons, flatMap_agree (f := f) (g := g) fun u hu => hg u fun he => by subst he; exact hnt hu]
      exact hp'

theorem Parts.left {L A f} (h : Parts L A f) {b} (hb : b ∈ A) : b ∈ L := by
  obtain ⟨ts, _, _, hp⟩ := h
  exact hp.mem_iff.mpr (List.mem_append_left _ hb)

theorem Parts.mem {L A f} (h : Parts L A f) {t b} (hb : b ∈ f t) : b ∈ L := by
  obtain ⟨rest, hp, _⟩ := h.split t
  exact hp.mem_iff.mpr (List.mem_append_right _ (List.mem_append_left _ hb))



theorem apart_perm {L M : List Owned} (hp : L.Perm M) (h : L.Pairwise Owned.Apart) : M.Pairwise Owned.Apart :=
  hp.pairwise h fun h => Owned.Apart.symm h

/-- Blocks of different threads, or of a thread and the rest, have no byte in common. -/
theorem Parts.apart {L A f} (h : Parts L A f) (ha : L.Pairwise Owned.Apart) {t : Nat} {b : Owned} (hb : b ∈ f t) :
    (∀ c ∈ A, c.Apart b) ∧ ∀ u, u ≠ t → ∀ c ∈ f u, c.Apart b := by
  obtain ⟨rest, hp, hr, _⟩ := h.split t
  have h1 := List.pairwise_append.mp (apart_perm hp ha)
  refine ⟨fun c hc => h1.2.2 c hc b (List.mem_append_left _ hb), fun u hu c hc => ?_⟩
  exact (List.pairwise_append.mp h1.2.1).2.2 b hb c (hr u hu c hc) |>.symm

theorem Parts.own {L A f} (h : Parts L A f) (ha : L.Pairwise Owned.Apart) (t : Nat) : (f t).Pairwise Owned.Apart := by
  obtain ⟨rest, hp, _, _⟩ := h.split t
  exact (List.pairwise_append.mp (List.pairwise_append.mp (apart_perm hp ha)).2.1).1

/-! ### The invariant -/

/-- The blocks a default method works on. -/
def zheld : ZPc → Option (ZCall × Option Owned) → List Owned
  | .off, _ => []
  | .alloc _, bz => (bz.bind (·.2)).toList
  | .zero j b _, bz => Owned.of b j.layout :: (bz.bind (·.2)).toList
  | .copy _ _ new b _, bz => Owned.of b new :: (bz.bind (·.2)).toList
  | .free _ _ new b, _ => [Owned.of b new]

/-- A call of a default method with the block handed over to it, which holds what it held when the call was made. -/
inductive ZJobOK (m sn : Nat → Byte) : ZJob → Option Owned → Prop
  | zeroed {l} (h : l.Valid) : ZJobOK m sn (.zeroed l) none
  | grow {b p old new} (hf : b.Fits p old) (h : new.Valid) (hs : old.size ≤ new.size) (same : ∀ x, b.Has x → m x = sn x) :
      ZJobOK m sn (.growZeroed p old new) (some b)

/-- A thread executing the recorded call is at a place in a default method, and executing a call of `SyncBlinkAlloc`'s own methods. -/
inductive ZThr (m sn : Nat → Byte) : ZPc → Option (ZCall × Option Owned) → Option (Call × Option Owned) → Prop
  | idle : ZThr m sn .off none none
  | plain {c ob} : ZThr m sn .off (some (.plain c, ob)) (some (c, ob))
  | alloc {j ob} (hj : ZJobOK m sn j ob) : ZThr m sn (.alloc j) (some (.zeroed j, ob)) (some (.allocate j.layout, none))
  | zero {j ob b k} (hj : ZJobOK m sn j ob) (hk : k ≤ b.len) (hz : ∀ i, i < k → m (b.addr + i) = .raw 0) :
      ZThr m sn (.zero j b k) (some (.zeroed j, ob)) none
  | copy {p old new o b k} (hj : ZJobOK m sn (.growZeroed p old new) (some o)) (hk : k ≤ old.size) (hlen : new.size ≤ b.len)
      (hc : ∀ i, i < k → m (b.addr + i) = sn (p + i)) (hz : ∀ i, k ≤ i → i < b.len → m (b.addr + i) = .raw 0) :
      ZThr m sn (.copy p old new b k) (some (.zeroed (.growZeroed p old new), some o)) none
  | free {p old new o b} (hs : old.size ≤ new.size) (hlen : new.size ≤ b.len)
      (hc : ∀ i, i < old.size → m (b.addr + i) = sn (p + i)) (hz : ∀ i, old.size ≤ i → i < b.len → m (b.addr + i) = .raw 0) :
      ZThr m sn (.free p old new b) (some (.zeroed (.growZeroed p old new), some o)) (some (.deallocate p old.size, some o))

theorem ZJobOK.frame {m m' sn j ob} (h : ZJobOK m sn j ob) (hm : ∀ b ∈ ob.toList, ∀ x, b.Has x → m' x = m x) : ZJobOK m' sn j ob := by
  cases h with
  | zeroed h => exact .zeroed h
  | grow hf h hs same => exact .grow hf h hs fun x hx => (hm _ (by simp) x hx).trans (same x hx)

theorem ZThr.frame {m m' sn pc bz kb} (h : ZThr m sn pc bz kb) (hm : ∀ b ∈ zheld pc bz, ∀ x, b.Has x → m' x = m x) : ZThr m' sn pc bz kb := by
  have byte : ∀ {b : Slice} {l : Layout} {i}, Owned.of b l ∈ zheld pc bz → i < b.len → m' (b.addr + i) = m (b.addr + i) :=
    fun hb hi => hm _ hb _ ⟨Nat.le_add_right .., Nat.add_lt_add_left hi _⟩
  cases h with
  | idle => exact .idle
  | plain => exact .plain
  | alloc hj => exact .alloc (hj.frame hm)
  | zero hj hk hz =>
    exact .zero (hj.frame fun b hb => hm b (List.mem_cons_of_mem _ hb)) hk fun i hi =>
      (byte List.mem_cons_self (Nat.lt_of_lt_of_le hi hk)).trans (hz i hi)
  | copy hj hk hlen hc hz =>
    rename_i p old new o b k
    have hs : old.size ≤ new.size := by cases hj; assumption
    exact .copy (hj.frame fun b hb => hm b (List.mem_cons_of_mem _ hb)) hk hlen
      (fun i hi => (byte List.mem_cons_self (by omega)).trans (hc i hi)) fun i h1 h2 => (byte List.mem_cons_self h2).trans (hz i h1 h2)
  | free hs hlen hc hz =>
    exact .free hs hlen (fun i hi => (byte List.mem_cons_self (by omega)).trans (hc i hi)) fun i h1 h2 =>
      (byte List.mem_cons_self h2).trans (hz i h1 h2)

/-- The invariant. `KS` is the book of the system without default methods. -/
structure ZInv (s0 : SS) (z : ZSS) (K : ZBook) (KS : Book) : Prop where
  base : SReach s0 z.s KS
  parts : Parts KS.owned K.owned (fun t => zheld (z.zpcs t) (K.busy t))
  thr : ∀ t, ZThr z.s.w.mem (K.snap t) (z.zpcs t) (K.busy t) (KS.busy t)

theorem ZInv.apart {s0 z K KS} (h : ZInv s0 z K KS) {t : Nat} {b : Owned} (hb : b ∈ zheld (z.zpcs t) (K.busy t)) :
    (∀ c ∈ K.owned, c.Apart b) ∧ ∀ u, u ≠ t → ∀ c ∈ zheld (z.zpcs u) (K.busy u), c.Apart b :=
  h.parts.apart (C22_no_overlap h.base) hb

theorem ZInv.held_mem {s0 z K KS} (h : ZInv s0 z K KS) {t : Nat} {b : Owned} (hb : b ∈ zheld (z.zpcs t) (K.busy t)) : b ∈ KS.owned :=
  h.parts.mem (f := fun t => zheld (z.zpcs t) (K.busy t)) hb

/-- Thread `t` moves; the others keep what they have, and what is in it. -/
theorem ZInv.move {s0 z K KS} (h : ZInv s0 z K KS) (t : Nat) {z' : ZSS} {K' : ZBook} {KS' : Book} (hb : SReach s0 z'.s KS')
    (hz : ∀ u, u ≠ t → z'.zpcs u = z.zpcs u) (hk : ∀ u, u ≠ t → K'.busy u = K.busy u ∧ K'.snap u = K.snap u)
    (hkS : ∀ u, u ≠ t → KS'.busy u = KS.busy u)
    (hm : ∀ u, u ≠ t → ∀ b ∈ zheld (z.zpcs u) (K.busy u), ∀ x, b.Has x → z'.s.w.mem x = z.s.w.mem x)
    (hp : ∀ rest, KS.owned.Perm (K.owned ++ (zheld (z.zpcs t) (K.busy t) ++ rest)) →
      KS'.owned.Perm (K'.owned ++ (zheld (z'.zpcs t) (K'.busy t) ++ rest)))
    (ht : ZThr z'.s.w.mem (K'.snap t) (z'.zpcs t) (K'.busy t) (KS'.busy t)) : ZInv s0 z' K' KS' := by
  obtain ⟨rest, h1, _, h2⟩ := h.parts.split t
  refine ⟨hb, h2 (fun u hu => ?_) (hp rest h1), fun u => ?_⟩
  · rw [hz u hu, (hk u hu).1]
  · by_cases hu : u = t
    · subst hu; exact ht
    · rw [hz u hu, (hk u hu).1, (hk u hu).2, hkS u hu]
      exact (h.thr u).frame (hm u hu)

theorem ZSS.setZ_same (z : ZSS) (t : Nat) (pc : ZPc) : (z.setZ t pc).zpcs t = pc := by simp [ZSS.setZ]
theorem ZSS.setZ_ne (z : ZSS) (pc : ZPc) {t u : Nat} (h : u ≠ t) : (z.setZ t pc).zpcs u = z.zpcs u := by simp [ZSS.setZ, h]

theorem ZInv.busy_none {s0 z K KS} (h : ZInv s0 z K KS) {t : Nat} (hb : K.busy t = none) : z.zpcs t = .off ∧ KS.busy t = none := by
  have ht := h.thr t
  rw [hb] at ht
  generalize z.zpcs t = pc at ht
  generalize KS.busy t = kb at ht
  cases ht
  exact ⟨rfl, rfl⟩

theorem SReach.snoc {s0 s K a r s' K'} (h : SReach s0 s K) (hl : SLegal K a) (hs : sstep s a = .ok (some (r, s')))
    (ha : SAfter s.w.mem K a r K') : SReach s0 s' K' := by
  obtain ⟨h0, tr, hr⟩ := h
  exact ⟨h0, _, hr.snoc hl hs ha⟩

theorem sstep_call {s : SS} {t c} (h : s.pcs t = .idle) : sstep s (.call t c) = .ok (some (none, s.setPc t (.rd c))) := by
  simp only [sstep]
  rw [if_pos h]
  rfl

theorem zinner_eq {z : ZSS} {t : Nat} {c : Call} {pc : ZPc} (h : z.s.pcs t = .idle) :
    z.inner t c pc = .ok (some (none, { z with s := z.s.setPc t (.rd c) }.setZ t pc)) := by
  simp only [ZSS.inner]
  rw [sstep_call h]
  rfl

/-- What a call of `allocate` or `deallocate` answers. -/
theorem SReach.answer {s0 s s' K} (h : SReach s0 s K) {t ch r} (hs : sstep s (.go t ch) = .ok (some (some r, s'))) :
    (∀ l ob, K.busy t = some (.allocate l, ob) → r = .err ∨ ∃ b, r = .block b) ∧
    (∀ p n ob, K.busy t = some (.deallocate p n, ob) → r = .unit) := by
  obtain ⟨cs, B, hi⟩ := h.inv
  have hg := hi.go_res hs
  have hpc : ∃ wr, s.pcs t = .ret wr r := by
    cases hg with
    | retW hpc => exact ⟨_, hpc⟩
    | retR hpc => exact ⟨_, hpc⟩
  obtain ⟨wr, hpc⟩ := hpc
  have ht := hi.thr t
  generalize B t = Bt at ht
  rw [hpc] at ht
  constructor
  · intro l ob hb
    rw [hb] at ht
    cases ht with
    | retAllocOk => exact .inr ⟨_, rfl⟩
    | retAllocErr => exact .inl rfl
  · intro p n ob hb
    rw [hb] at ht
    cases ht
    rfl

/-! ### Steps -/

/-- A step of the system without default methods changes no owned byte, unless it stores there or resets. -/
theorem ZInv.frame {s0 z K KS} (h : ZInv s0 z K KS) {a : Act} (hl : SLegal KS a) {r s'} (hs : sstep z.s a = .ok (some (r, s')))
    (hr : a.resets = false) {b : Owned} (hb : b ∈ KS.owned) {x : Nat} (hx : b.Has x) (hw : ∀ v, a ≠ .write x v) : s'.w.mem x = z.s.w.mem x :=
  C23_frame h.base hl hs hb hx hw (by cases a <;> first | (cases hr; done) | exact ⟨nofun, nofun, nofun⟩)

theorem put_other {α} {f : Nat → α} {t : Nat} {a : α} : ∀ u, u ≠ t → put f t a u = f u := fun _ hu => put_ne _ _ hu

theorem ZInv.call {s0 z K KS} (h : ZInv s0 z K KS) {t : Nat} (hb : K.busy t = none) {c : Call} {pc : ZPc} {K' : ZBook} {KS' : Book}
    (hl : SLegal KS (.call t c)) (ha : SAfter z.s.w.mem KS (.call t c) none KS')
    (hk : ∀ u, u ≠ t → K'.busy u = K.busy u ∧ K'.snap u = K.snap u) (hkS : ∀ u, u ≠ t → KS'.busy u = KS.busy u)
    (hp : ∀ rest, KS.owned.Perm (K.owned ++ rest) → KS'.owned.Perm (K'.owned ++ (zheld pc (K'.busy t) ++ rest)))
    (ht : ZThr z.s.w.mem (K'.snap t) pc (K'.busy t) (KS'.busy t)) :
    ZInv s0 ({ z with s := z.s.setPc t (.rd c) }.setZ t pc) K' KS' := by
  obtain ⟨hz, hkb⟩ := h.busy_none hb
  have hr := h.base.snoc hl (sstep_call (h.base.busy_none hkb)) ha
  refine h.move t (z' := { z with s := z.s.setPc t (.rd c) }.setZ t pc) hr (fun u hu => ZSS.setZ_ne _ _ hu) hk hkS
    (fun _ _ _ _ _ _ => rfl) ?_ ?_
  · intro rest hp1
    rw [ZSS.setZ_same]
    rw [hz] at hp1
    exact hp rest hp1
  · rw [ZSS.setZ_same]; exact ht

theorem erase_perm {L A rest : List Owned} {b : Owned} (h : L.Perm (A ++ rest)) (hb : b ∈ A) : (L.erase b).Perm (A.erase b ++ rest) := by
  rw [← List.erase_append_left _ hb]
  exact h.erase b

/-- Every legal step keeps the invariant. -/
theorem ZInv.step {s0 z K KS} (h : ZInv s0 z K KS) {a : ZAct} (hl : ZLegal K a) {r z'} (hs : zstep z a = .ok (some (r, z'))) {K'}
    (ha : ZAfter z.s.w.mem K a r K') : ∃ KS', ZInv s0 z' K' KS' := by
  have off : ∀ {t c pc}, K.busy t = none → z.inner t c pc = .ok (some (r, z')) →
      r = none ∧ z' = { z with s := z.s.setPc t (.rd c) }.setZ t pc := by
    intro t c pc hb he
    rw [zinner_eq (h.base.busy_none (h.busy_none hb).2)] at he
    cases he
    exact ⟨rfl, rfl⟩
  cases hl with
  | @allocate t l hb hv =>
    simp only [zstep, if_pos (h.busy_none hb).1] at hs
    obtain ⟨rfl, rfl⟩ := off hb hs
    cases ha with
    | allocate =>
      refine ⟨_, h.call hb (.allocate (h.busy_none hb).2 hv) .allocate (fun u hu => ⟨put_other u hu, rfl⟩) put_other (fun rest hp => hp) ?_⟩
      dsimp only
      rw [put_same, put_same]
      exact .plain
    | inside ha => cases ha
    | resets ha => cases ha
  | @resize t b p old new hb ho hf hv =>
    simp only [zstep, if_pos (h.busy_none hb).1] at hs
    obtain ⟨rfl, rfl⟩ := off hb hs
    cases ha with
    | @resize _ b' _ _ _ ho' hf' =>
      refine ⟨_, h.call hb (.resize (h.busy_none hb).2 (h.parts.left ho') hf' hv) (.resize (h.parts.left ho') hf')
        (fun u hu => ⟨put_other u hu, rfl⟩) put_other (fun rest hp => erase_perm hp ho') ?_⟩
      dsimp only
      rw [put_same, put_same]
      exact .plain
    | inside ha => cases ha
    | resets ha => cases ha
  | @deallocate t b p n hb ho hf =>
    simp only [zstep, if_pos (h.busy_none hb).1] at hs
    obtain ⟨rfl, rfl⟩ := off hb hs
    cases ha with
    | @deallocate _ b' _ _ ho' hf' =>
      refine ⟨_, h.call hb (.deallocate (h.busy_none hb).2 (h.parts.left ho') hf') (.deallocate (h.parts.left ho') hf')
        (fun u hu => ⟨put_other u hu, rfl⟩) put_other (fun rest hp => erase_perm hp ho') ?_⟩
      dsimp only
      rw [put_same, put_same]
      exact .plain
    | inside ha => cases ha
    | resets ha => cases ha
  | @zeroed t l hb hv =>
    simp only [zstep, if_pos (h.busy_none hb).1] at hs
    obtain ⟨rfl, rfl⟩ := off hb hs
    cases ha with
    | zeroed =>
      refine ⟨_, h.call hb (.allocate (h.busy_none hb).2 hv) .allocate (fun u hu => ⟨put_other u hu, put_other u hu⟩) put_other ?_ ?_⟩
      · dsimp only
        rw [put_same]
        exact fun rest hp => hp
      · dsimp only
        rw [put_same, put_same, put_same]
        exact .alloc (.zeroed hv)
    | inside ha => cases ha
  | @growZeroed t b p old new hb ho hf hv hsz =>
    simp only [zstep, if_pos (h.busy_none hb).1, dassert, if_neg (fun hh => hh.2 hsz : ¬ (z.s.w.debug = true ∧ ¬ old.size ≤ new.size))] at hs
    replace hs : z.inner t (.allocate new) (.alloc (.growZeroed p old new)) = .ok (some (r, z')) := hs
    obtain ⟨rfl, rfl⟩ := off hb hs
    cases ha with
    | @growZeroed _ b' _ _ _ ho' hf' =>
      refine ⟨_, h.call hb (.allocate (h.busy_none hb).2 hv) .allocate (fun u hu => ⟨put_other u hu, put_other u hu⟩) put_other ?_ ?_⟩
      · intro rest hp
        dsimp only
        rw [put_same]
        refine hp.trans (((List.perm_cons_erase ho').append_right _).trans ?_)
        exact List.perm_middle.symm
      · dsimp only
        rw [put_same, put_same, put_same]
        exact .alloc (.grow hf' hv hsz fun _ _ => rfl)
    | inside ha => cases ha
  | @write b x v ho hx =>
    simp only [zstep, sstep] at hs
    cases hs
    have hK : K' = K := by
      cases ha with
      | inside ha => cases ha
      | write => rfl
      | resets ha => cases ha
    subst hK
    refine ⟨KS, h.base.write (h.parts.left ho) hx v, h.parts, fun t => (h.thr t).frame fun c hc y hy => ?_⟩
    dsimp only
    refine setBytes_out ?_
    have : y ≠ x := fun he => (h.apart hc).1 b ho y ⟨he ▸ hx, hy⟩
    omega
  | @resets a har hq =>
    have hq' : ∀ t, KS.busy t = none := fun t => (h.busy_none (hq t)).2
    have hlS : SLegal KS a := by
      cases a with
      | reset => exact .reset hq'
      | resetUnchecked => exact .resetUnchecked hq'
      | resetFinal => exact .resetFinal hq'
      | _ => cases har
    have haS : SAfter z.s.w.mem KS a none { KS with owned := [] } := by
      cases a with
      | reset => exact .reset
      | resetUnchecked => exact .resetUnchecked
      | resetFinal => exact .resetFinal
      | _ => cases har
    have hs1 : ∃ s', sstep z.s a = .ok (some (r, s')) ∧ z' = { z with s := s' } := by
      cases hh : sstep z.s a with
      | error e => cases a <;> first | (cases har; done) | (simp only [zstep, hh] at hs; cases hs)
      | ok q =>
        rcases q with _ | ⟨r1, s1⟩
        · cases a <;> first | (cases har; done) | (simp only [zstep, hh] at hs; cases hs)
        · refine ⟨s1, ?_⟩
          cases a <;> first | (cases har; done) | (simp only [zstep, hh] at hs; cases hs; exact ⟨rfl, rfl⟩)
    obtain ⟨s', hs1, rfl⟩ := hs1
    have hr : r = none ∧ K' = { K with owned := [] } := by
      cases ha with
      | resets => exact ⟨rfl, rfl⟩
      | inside ha => cases a <;> first | cases har; done | cases ha
      | ret ha => cases a <;> first | cases har; done | cases ha
      | _ => cases har
    obtain ⟨rfl, rfl⟩ := hr
    refine ⟨_, h.base.snoc hlS hs1 haS, ⟨[], List.nodup_nil, fun t _ => ?_, .refl _⟩, fun t => ?_⟩
    · show zheld (z.zpcs t) (K.busy t) = []
      rw [(h.busy_none (hq t)).1]; rfl
    · show ZThr s'.w.mem (K.snap t) (z.zpcs t) (K.busy t) (KS.busy t)
      rw [(h.busy_none (hq t)).1, hq t, hq' t]
      exact .idle
  | @go t ch =>
    cases hh : sstep z.s (.go t ch) with
    | error e => simp only [zstep, hh] at hs; cases hs
    | ok q =>
      rcases q with _ | ⟨_ | r1, s1⟩
      · simp only [zstep, hh] at hs; cases hs
      · simp only [zstep, hh] at hs
        cases hs
        have hK : K' = K := by
          cases ha with
          | inside ha => rfl
          | resets ha => cases ha
        subst hK
        have hm : ∀ u, ∀ b ∈ zheld (z.zpcs u) (K'.busy u), ∀ x, b.Has x → s1.w.mem x = z.s.w.mem x := fun u b hb x hx =>
          h.frame .go hh rfl (h.held_mem hb) hx nofun
        exact ⟨KS, h.base.snoc .go hh .inside, h.parts, fun u => (h.thr u).frame (hm u)⟩
      · simp only [zstep, hh] at hs
        replace hs : ZSS.back { z with s := s1 } t r1 = (r, z') := by
          injection hs with hs; injection hs
        obtain ⟨hw, _, c, ob, hkb⟩ := h.base.ret_w hh
        have hr := h.base.snoc .go hh (.ret hkb)
        have hm : ∀ z' : ZSS, z'.s = s1 → ∀ u, u ≠ t → ∀ b ∈ zheld (z.zpcs u) (K.busy u), ∀ x, b.Has x → z'.s.w.mem x = z.s.w.mem x :=
          fun z' he _ _ _ _ x _ => by rw [he, hw]
        obtain ⟨an1, an2⟩ := h.base.answer hh
        have ht := h.thr t
        rw [hkb] at ht
        generalize hpc : z.zpcs t = pc at ht
        generalize hbz : K.busy t = bz at ht
        cases ht with
        | plain =>
          simp only [ZSS.back, hpc] at hs
          cases hs
          cases ha with
          | @ret _ t' c' ob' _ ha hb =>
            cases ha
            rw [hbz] at hb
            cases hb
            refine ⟨_, h.move t hr (fun _ _ => rfl) (fun u hu => ⟨put_other u hu, rfl⟩) put_other (hm _ rfl) ?_ ?_⟩
            · intro rest hp
              dsimp only [zgets]
              rw [hpc] at hp ⊢
              rw [List.append_assoc]
              exact hp.append_left _
            · dsimp only
              rw [put_same, put_same, hpc]
              exact .idle
        | @alloc j ob' hj =>
          rcases an1 _ _ hkb with rfl | ⟨b, rfl⟩
          · simp only [ZSS.back, hpc] at hs
            cases hs
            cases ha with
            | @ret _ t' c' ob' _ ha hb =>
              cases ha
              rw [hbz] at hb
              cases hb
              refine ⟨_, h.move t hr (fun u hu => ZSS.setZ_ne _ _ hu) (fun u hu => ⟨put_other u hu, rfl⟩) put_other (hm _ rfl) ?_ ?_⟩
              · intro rest hp
                dsimp only
                rw [hpc, hbz] at hp
                rw [ZSS.setZ_same]
                cases hj with
                | zeroed => exact hp
                | grow => exact hp.trans List.perm_middle
              · dsimp only
                rw [put_same, put_same, ZSS.setZ_same]
                exact .idle
          · simp only [ZSS.back, hpc] at hs
            cases hs
            have hK : K' = K := by
              cases ha with
              | inside ha => rfl
              | resets ha => cases ha
            subst hK
            refine ⟨_, h.move t hr (fun u hu => ZSS.setZ_ne _ _ hu) (fun u hu => ⟨rfl, rfl⟩) put_other (hm _ rfl) ?_ ?_⟩
            · intro rest hp
              rw [ZSS.setZ_same]
              rw [hpc] at hp
              exact (hp.cons _).trans List.perm_middle.symm
            · dsimp only
              rw [put_same, ZSS.setZ_same, hbz]
              refine .zero (hj.frame fun _ _ x _ => ?_) (Nat.zero_le _) nofun
              show s1.w.mem x = _
              rw [hw]
        | @free p old new o b hsz hlen hc hz =>
          obtain rfl := an2 _ _ _ hkb
          simp only [ZSS.back, hpc] at hs
          cases hs
          cases ha with
          | @ret _ t' c' ob' _ ha hb =>
            cases ha
            rw [hbz] at hb
            cases hb
            refine ⟨_, h.move t hr (fun u hu => ZSS.setZ_ne _ _ hu) (fun u hu => ⟨put_other u hu, rfl⟩) put_other (hm _ rfl) ?_ ?_⟩
            · intro rest hp
              dsimp only
              rw [hpc] at hp
              rw [ZSS.setZ_same]
              exact hp.trans List.perm_middle
            · dsimp only
              rw [put_same, put_same, ZSS.setZ_same]
              exact .idle
  | @zgo t =>
    have ht := h.thr t
    have hheld := fun b => h.held_mem (t := t) (b := b)
    have happ := fun b => h.apart (t := t) (b := b)
    have hown := h.parts.own (C22_no_overlap h.base) t
    have hmv := fun z' => h.move t (z' := z') (KS' := KS) (K' := K)
    generalize hpc : z.zpcs t = pc at ht hheld happ hown hmv
    generalize hbz : K.busy t = bz at ht hheld happ hown hmv
    generalize hkb : KS.busy t = kb at ht hmv
    simp only [zstep, zgoStep, hpc] at hs
    -- a byte of the new block is stored
    have store : ∀ {b : Slice} {l : Layout} {k : Nat} {v : Byte} {pc' : ZPc}, Owned.of b l ∈ zheld pc bz → k < b.len →
        zheld pc' bz = zheld pc bz → ZThr (setBytes z.s.w.mem (b.addr + k) 1 fun _ => v) (K.snap t) pc' bz kb →
        ZInv s0 ({ z with s := { z.s with w := { z.s.w with mem := setBytes z.s.w.mem (b.addr + k) 1 fun _ => v } } }.setZ t pc') K KS := by
      intro b l k v pc' hb hk hh ht'
      have hx : (Owned.of b l).Has (b.addr + k) := ⟨Nat.le_add_right .., Nat.add_lt_add_left hk _⟩
      refine hmv _ (h.base.write (hheld _ hb) hx v) (fun u hu => ZSS.setZ_ne _ _ hu) (fun u hu => ⟨rfl, rfl⟩) (fun u hu => rfl) ?_ ?_ ?_
      · intro u hu c hc y hy
        show setBytes z.s.w.mem (b.addr + k) 1 (fun _ => v) y = _
        refine setBytes_out ?_
        have : y ≠ b.addr + k := fun he => (happ _ hb).2 u hu c hc y ⟨hy, he ▸ hx⟩
        omega
      · intro rest hp
        rw [ZSS.setZ_same, hh]
        exact hp
      · rw [ZSS.setZ_same]
        exact ht'
    have inside : r = none → K' = K := by
      rintro rfl
      cases ha with
      | inside ha => rfl
    cases ht with
    | idle => cases hs
    | plain => cases hs
    | alloc => cases hs
    | free => cases hs
    | @zero j ob b k hj hk hz =>
      dsimp only at hs
      split at hs
      · rename_i hlt
        simp only [zeroByte] at hs
        split at hs
        case isFalse => cases hs
        cases hs
        obtain rfl := inside rfl
        have hb : Owned.of b j.layout ∈ zheld (.zero j b k) (some (.zeroed j, ob)) := List.mem_cons_self
        refine ⟨KS, store hb hlt rfl (.zero (hj.frame fun c hc y hy => ?_) hlt fun i hi => ?_)⟩
        · refine setBytes_out ?_
          have : y ≠ b.addr + k := fun he => (List.pairwise_cons.mp hown).1 c hc y
            ⟨⟨by show b.addr ≤ y; omega, by show y < b.addr + b.len; omega⟩, hy⟩
          omega
        · by_cases he : i = k
          · subst he; simp [setBytes]
          · rw [setBytes_out (by omega)]; exact hz i (by omega)
      · rename_i hlt
        have hk' : k = b.len := by omega
        subst hk'
        cases hj with
        | @zeroed l hv =>
          cases hs
          cases ha with
          | @ret _ t' c' ob' _ ha hb =>
            cases ha
            rw [hbz] at hb
            cases hb
            refine ⟨KS, h.move t h.base (fun u hu => ZSS.setZ_ne _ _ hu) (fun u hu => ⟨put_other u hu, rfl⟩) (fun u hu => rfl)
              (fun _ _ _ _ _ _ => rfl) ?_ ?_⟩
            · intro rest hp
              dsimp only
              rw [hpc, hbz] at hp
              rw [ZSS.setZ_same]
              exact hp.trans List.perm_middle
            · dsimp only
              rw [put_same, ZSS.setZ_same, hkb]
              exact .idle
        | @grow o p old new hf hv hsz same =>
          dsimp only at hs
          simp only [require] at hs
          split at hs
          case isFalse => cases hs
          cases hs
          obtain rfl := inside rfl
          have hlen : new.size ≤ b.len := (C22_layout_and_memory h.base (hheld _ List.mem_cons_self)).2.1
          refine ⟨KS, hmv _ h.base (fun u hu => ZSS.setZ_ne _ _ hu) (fun u hu => ⟨rfl, rfl⟩) (fun u hu => rfl)
            (fun _ _ _ _ _ _ => rfl) ?_ ?_⟩
          · intro rest hp
            rw [ZSS.setZ_same]
            exact hp
          · rw [ZSS.setZ_same]
            exact .copy (.grow hf hv hsz same) (Nat.zero_le _) hlen nofun fun i _ hi => hz i hi
    | @copy p old new o b k hj hk hlen hc hz =>
      have hj' := hj
      cases hj' with
      | grow hf hv hsz same =>
      dsimp only at hs
      split at hs
      · rename_i hlt
        simp only [copyByte] at hs
        split at hs
        case isFalse => cases hs
        cases hs
        obtain rfl := inside rfl
        have hb : Owned.of b new ∈ zheld (.copy p old new b k) (some (.zeroed (.growZeroed p old new), some o)) := List.mem_cons_self
        have hkl : k < b.len := by omega
        refine ⟨KS, store hb hkl rfl (.copy (hj.frame fun c hc y hy => ?_) hlt hlen (fun i hi => ?_) fun i h1 h2 => ?_)⟩
        · refine setBytes_out ?_
          have : y ≠ b.addr + k := fun he => (List.pairwise_cons.mp hown).1 c hc y
            ⟨⟨by show b.addr ≤ y; omega, by show y < b.addr + b.len; omega⟩, hy⟩
          omega
        · by_cases he : i = k
          · subst he
            simp only [setBytes]
            rw [if_pos (by omega)]
            exact same _ ⟨by have := hf.1; omega, by have := hf.1; have := hf.2.2.2; omega⟩
          · rw [setBytes_out (by omega)]; exact hc i (by omega)
        · rw [setBytes_out (by omega)]; exact hz i (by omega) h2
      · rename_i hlt
        have hk' : k = old.size := by omega
        subst hk'
        have ho : o ∈ KS.owned := hheld o (List.mem_cons_of_mem _ (by simp))
        have hfd : o.addr = p ∧ o.size ≤ old.size ∧ old.size ≤ o.len := ⟨hf.1, hf.2.2.1, hf.2.2.2⟩
        have hi := h.base.busy_none hkb
        rw [zinner_eq hi] at hs
        cases hs
        obtain rfl := inside rfl
        refine ⟨_, h.move t (h.base.snoc (.deallocate hkb ho hfd) (sstep_call hi) (.deallocate ho hfd)) (fun u hu => ZSS.setZ_ne _ _ hu)
          (fun u hu => ⟨rfl, rfl⟩) put_other (fun _ _ _ _ _ _ => rfl) ?_ ?_⟩
        · intro rest hp
          dsimp only
          rw [hpc, hbz] at hp
          rw [ZSS.setZ_same]
          have h1 : (K'.owned ++ (zheld (.copy p old new b old.size) (some (.zeroed (.growZeroed p old new), some o)) ++ rest)).Perm
              (o :: (K'.owned ++ (Owned.of b new :: rest))) :=
            (List.Perm.append_left _ (.swap ..)).trans List.perm_middle
          have h2 := (hp.trans h1).erase o
          rw [List.erase_cons_head] at h2
          exact h2
        · dsimp only
          rw [put_same, ZSS.setZ_same, hbz]
          exact .free hsz hlen hc hz

end Blink
