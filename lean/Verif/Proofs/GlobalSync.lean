import Verif.Proofs.SyncFrame
import Verif.Proofs.GlobalStep
import Verif.Spec.GlobalSync
/-
  The invariant of a global allocator with two modes shared by several threads (src/global/sync.rs).
-/
namespace Blink

/-- The block handed over to a call. -/
def lent : Option (GCall × Option Owned) → List Owned
  | some (_, some b) => [b]
  | _ => []

/-- The blocks of the `SyncBlinkAlloc` that a thread holds which is inside a call of the global allocator, but outside the
`SyncBlinkAlloc`. -/
def xOf (md : Bool) (bz : Option (GCall × Option Owned)) : GPc → List Owned
  | .zero l s _ => [Owned.of s l]
  | .fin (.alloc l) (.block s) => [granted s.addr l]
  | .fin (.allocZeroed l) (.block s) => [granted s.addr l]
  | .fin (.realloc _ l n) (.block s) => [granted s.addr ⟨n, l.align⟩]
  | .fin (.realloc _ _ _) .err => if md then lent bz else []
  | _ => []

/-- A thread executing the recorded call is at `pc`; `ibz` is the call of the `SyncBlinkAlloc` it is executing. -/
inductive GTOK (md : Bool) (m sn isn : Nat → Byte) : Option (GCall × Option Owned) → GPc → Option (Call × Option Owned) → Prop
  | idle : GTOK md m sn isn none .idle none
  | bAlloc {l} (hm : md = true) (hv : l.Valid) (hz : 0 < l.size) :
      GTOK md m sn isn (some (.alloc l, none)) (.blink (.alloc l)) (some (.allocate l, none))
  | bZeroed {l} (hm : md = true) (hv : l.Valid) (hz : 0 < l.size) :
      GTOK md m sn isn (some (.allocZeroed l, none)) (.blink (.allocZeroed l)) (some (.allocate l, none))
  | bDealloc {b p l} (hm : md = true) (hi : b.Is p l) :
      GTOK md m sn isn (some (.dealloc p l, some b)) (.blink (.dealloc p l)) (some (.deallocate p l.size, some b))
  | bRealloc {b p l n} (hm : md = true) (hi : b.Is p l) (hb : 0 < b.size ∧ b.len = b.size) (hz : 0 < n) (hs : isn = sn) :
      GTOK md m sn isn (some (.realloc p l n, some b)) (.blink (.realloc p l n)) (some (.resize p l ⟨n, l.align⟩, some b))
  | zero {l s k} (hm : md = true) (hz : 0 < l.size) (hk : k ≤ s.len) (hc : ∀ i, i < k → m (s.addr + i) = .raw 0) :
      GTOK md m sn isn (some (.allocZeroed l, none)) (.zero l s k) none
  | finAlloc {l s} (hm : md = true) (hz : 0 < l.size) : GTOK md m sn isn (some (.alloc l, none)) (.fin (.alloc l) (.block s)) none
  | finAllocErr {l} (hm : md = true) : GTOK md m sn isn (some (.alloc l, none)) (.fin (.alloc l) .err) none
  | finZeroed {l s} (hm : md = true) (hz : 0 < l.size) (hc : ∀ i, i < l.size → m (s.addr + i) = .raw 0) :
      GTOK md m sn isn (some (.allocZeroed l, none)) (.fin (.allocZeroed l) (.block s)) none
  | finZeroedErr {l} (hm : md = true) : GTOK md m sn isn (some (.allocZeroed l, none)) (.fin (.allocZeroed l) .err) none
  | finDealloc {b p l} (hm : md = true) : GTOK md m sn isn (some (.dealloc p l, some b)) (.fin (.dealloc p l) .unit) none
  | finRealloc {b p l n s} (hm : md = true) (hz : 0 < n) (hc : ∀ i, i < min l.size n → m (s.addr + i) = sn (p + i)) :
      GTOK md m sn isn (some (.realloc p l n, some b)) (.fin (.realloc p l n) (.block s)) none
  | finReallocErr {b p l n} (hb : md = true → 0 < b.size ∧ b.len = b.size) (hl : md = false → ISIZE < n + l.align)
      (hc : ∀ x, b.Has x → m x = sn x) :
      GTOK md m sn isn (some (.realloc p l n, some b)) (.fin (.realloc p l n) .err) none
  | dAlloc {l} (hm : md = false) (hv : l.Valid) (hz : 0 < l.size) :
      GTOK md m sn isn (some (.alloc l, none)) (.direct (.alloc l)) none
  | dZeroed {l} (hm : md = false) (hv : l.Valid) (hz : 0 < l.size) :
      GTOK md m sn isn (some (.allocZeroed l, none)) (.direct (.allocZeroed l)) none
  | dDealloc {b p l} (hm : md = false) (hi : b.Is p l) :
      GTOK md m sn isn (some (.dealloc p l, some b)) (.direct (.dealloc p l)) none
  | dRealloc {b p l n} (hm : md = false) (hi : b.Is p l) (hz : 0 < n) (hv : n + l.align ≤ ISIZE) (hc : ∀ x, b.Has x → m x = sn x) :
      GTOK md m sn isn (some (.realloc p l n, some b)) (.direct (.realloc p l n)) none

theorem GTOK.frame {md m m' sn isn bz pc ibz} (h : GTOK md m sn isn bz pc ibz)
    (hx : ∀ b ∈ xOf md bz pc, ∀ x, b.Has x → m' x = m x)
    (hy : md = false → ∀ b ∈ lent bz, ∀ x, b.Has x → m' x = m x) : GTOK md m' sn isn bz pc ibz := by
  cases h with
  | idle => exact .idle
  | bAlloc h1 h2 h3 => exact .bAlloc h1 h2 h3
  | bZeroed h1 h2 h3 => exact .bZeroed h1 h2 h3
  | bDealloc h1 h2 => exact .bDealloc h1 h2
  | bRealloc h1 h2 h3 h4 h5 => exact .bRealloc h1 h2 h3 h4 h5
  | zero h1 h2 h3 hc =>
    exact .zero h1 h2 h3 fun i hi => (hx _ List.mem_cons_self _ ⟨by simp only [Owned.of]; omega, by simp only [Owned.of]; omega⟩).trans (hc i hi)
  | finAlloc h1 h2 => exact .finAlloc h1 h2
  | finAllocErr h1 => exact .finAllocErr h1
  | finZeroed h1 h2 hc =>
    exact .finZeroed h1 h2 fun i hi => (hx _ List.mem_cons_self _ ⟨by simp only [granted]; omega, by simp only [granted]; omega⟩).trans (hc i hi)
  | finZeroedErr h1 => exact .finZeroedErr h1
  | finDealloc h1 => exact .finDealloc h1
  | finRealloc h1 h2 hc =>
    exact .finRealloc h1 h2 fun i hi => (hx _ List.mem_cons_self _ ⟨by simp only [granted]; omega, by simp only [granted]; omega⟩).trans (hc i hi)
  | @finReallocErr b p l n hb hl hc =>
    refine .finReallocErr hb hl fun x hx' => Eq.trans ?_ (hc x hx')
    cases md with
    | true => exact hx b (by simp [xOf, lent]) x hx'
    | false => exact hy rfl b (by simp [lent]) x hx'
  | dAlloc h1 h2 h3 => exact .dAlloc h1 h2 h3
  | dZeroed h1 h2 h3 => exact .dZeroed h1 h2 h3
  | dDealloc h1 h2 => exact .dDealloc h1 h2
  | dRealloc h1 h2 h3 h4 hc =>
    exact .dRealloc h1 h2 h3 h4 fun x hx' => (hy h1 _ (by simp [lent]) x hx').trans (hc x hx')

theorem GTOK.of_none {md m sn isn pc ibz} (h : GTOK md m sn isn none pc ibz) : pc = .idle ∧ ibz = none := by
  cases h; exact ⟨rfl, rfl⟩

theorem GTOK.of_idle {md m sn isn bz ibz} (h : GTOK md m sn isn bz .idle ibz) : bz = none ∧ ibz = none := by
  cases h; exact ⟨rfl, rfl⟩

/-! ### All threads together -/

/-- Who has which blocks, and what is counted: `ow` are the blocks the `SyncBlinkAlloc` considers handed out, `dl` those of the
underlying allocator that were obtained directly. -/
def GFam (dbg : Bool) (K : GSBook) (pcs : Nat → GPc) (ow dl : List Owned) (cnt : Nat) : Prop :=
  ∃ ts : List Nat, ts.Nodup ∧ (∀ u, u ∉ ts → K.busy u = none ∧ pcs u = .idle) ∧
    ow.Perm (K.blink ++ ts.flatMap fun u => xOf K.blinkMode (K.busy u) (pcs u)) ∧
    (K.direct ++ if K.blinkMode then [] else ts.flatMap fun u => lent (K.busy u)).Perm dl ∧
    cnt = if dbg then (K.blink.length + if K.blinkMode then (ts.flatMap fun u => lent (K.busy u)).length else 0) % USIZE else 0

theorem GFam.focus {dbg K pcs ow dl cnt} (h : GFam dbg K pcs ow dl cnt) (t : Nat) :
    ∃ R S : List Owned, ow.Perm (K.blink ++ (xOf K.blinkMode (K.busy t) (pcs t) ++ R)) ∧
      (K.direct ++ if K.blinkMode then [] else lent (K.busy t) ++ S).Perm dl ∧
      (cnt = if dbg then (K.blink.length + if K.blinkMode then (lent (K.busy t)).length + S.length else 0) % USIZE else 0) ∧
      (∀ u, u ≠ t → ∀ b ∈ xOf K.blinkMode (K.busy u) (pcs u), b ∈ R) ∧ (∀ u, u ≠ t → ∀ b ∈ lent (K.busy u), b ∈ S) ∧
      ∀ {K' : GSBook} {pcs' ow' dl' cnt'}, K'.blinkMode = K.blinkMode → (∀ u, u ≠ t → K'.busy u = K.busy u) →
        (∀ u, u ≠ t → pcs' u = pcs u) → ow'.Perm (K'.blink ++ (xOf K.blinkMode (K'.busy t) (pcs' t) ++ R)) →
        (K'.direct ++ if K.blinkMode then [] else lent (K'.busy t) ++ S).Perm dl' →
        (cnt' = if dbg then (K'.blink.length + if K.blinkMode then (lent (K'.busy t)).length + S.length else 0) % USIZE else 0) →
        GFam dbg K' pcs' ow' dl' cnt' := by
  obtain ⟨ts, hn, hz, h1, h2, h3⟩ := h
  have key : ∃ us : List Nat, t ∉ us ∧ us.Nodup ∧ (∀ u, u ∉ t :: us → K.busy u = none ∧ pcs u = .idle) ∧
      (∀ {β} (f : Nat → List β), f t = [] ∨ t ∈ ts → (ts.flatMap f).Perm ((t :: us).flatMap f)) := by
    by_cases ht : t ∈ ts
    · have hp := List.perm_cons_erase ht
      have hn' := hp.nodup_iff.mp hn
      rw [List.nodup_cons] at hn'
      exact ⟨ts.erase t, hn'.1, hn'.2, fun u hu => hz u fun hu' => hu (hp.mem_iff.mp hu'), fun f _ => flatMap_perm f hp⟩
    · refine ⟨ts, ht, hn, fun u hu => hz u fun hu' => hu (List.mem_cons_of_mem _ hu'), fun f hf => ?_⟩
      rw [List.flatMap_cons, hf.resolve_right ht]; exact .refl _
  obtain ⟨us, hu1, hu2, hu3, hu4⟩ := key
  have e1 := hu4 (fun u => xOf K.blinkMode (K.busy u) (pcs u)) (by
    by_cases ht : t ∈ ts
    · exact .inr ht
    · left; rw [(hz t ht).1, (hz t ht).2]; rfl)
  have e2 := hu4 (fun u => lent (K.busy u)) (by
    by_cases ht : t ∈ ts
    · exact .inr ht
    · left; rw [(hz t ht).1]; rfl)
  rw [List.flatMap_cons] at e1 e2
  have inR : ∀ {β} (f : Nat → List β), (∀ u, u ∉ t :: us → f u = []) → ∀ u, u ≠ t → ∀ b ∈ f u, b ∈ us.flatMap f := by
    intro β f hf u hu b hb
    rw [List.mem_flatMap]
    refine ⟨u, ?_, hb⟩
    by_cases hm : u ∈ t :: us
    · exact (List.mem_cons.mp hm).resolve_left hu
    · rw [hf u hm] at hb; cases hb
  refine ⟨us.flatMap fun u => xOf K.blinkMode (K.busy u) (pcs u), us.flatMap fun u => lent (K.busy u), ?_, ?_, ?_, ?_, ?_, ?_⟩
  · exact h1.trans (e1.append_left _)
  · refine List.Perm.trans ?_ h2
    split
    · exact .refl _
    · exact (e2.append_left _).symm
  · rw [h3, e2.length_eq, List.length_append]
  · exact inR _ fun u hu => by rw [(hu3 u hu).1, (hu3 u hu).2]; rfl
  · exact inR _ fun u hu => by rw [(hu3 u hu).1]; rfl
  · intro K' pcs' ow' dl' cnt' hm hb hp g1 g2 g3
    have c1 : us.flatMap (fun u => xOf K'.blinkMode (K'.busy u) (pcs' u)) = us.flatMap fun u => xOf K.blinkMode (K.busy u) (pcs u) :=
      flatMap_congr' fun u hu => by
        have : u ≠ t := fun he => hu1 (he ▸ hu)
        rw [hm, hb u this, hp u this]
    have c2 : us.flatMap (fun u => lent (K'.busy u)) = us.flatMap fun u => lent (K.busy u) :=
      flatMap_congr' fun u hu => by
        have : u ≠ t := fun he => hu1 (he ▸ hu)
        rw [hb u this]
    refine ⟨t :: us, List.nodup_cons.mpr ⟨hu1, hu2⟩, ?_, ?_, ?_, ?_⟩
    · intro u hu
      have : u ≠ t := fun he => hu (he ▸ List.mem_cons_self)
      rw [hb u this, hp u this]
      exact hu3 u hu
    · rw [List.flatMap_cons, c1, hm]; exact g1
    · rw [List.flatMap_cons, c2, hm]; exact g2
    · rw [List.flatMap_cons, c2, hm, List.length_append]; exact g3

/-- With nobody inside there is nothing but the books. -/
theorem GFam.idle {dbg K pcs ow dl cnt} (h : GFam dbg K pcs ow dl cnt) (hq : ∀ t, K.busy t = none) (hp : ∀ t, pcs t = .idle) :
    ow.Perm K.blink ∧ K.direct.Perm dl ∧ cnt = if dbg then K.blink.length % USIZE else 0 := by
  obtain ⟨ts, _, _, h1, h2, h3⟩ := h
  have e1 : (ts.flatMap fun u => xOf K.blinkMode (K.busy u) (pcs u)) = [] := by
    rw [List.flatMap_eq_nil_iff]; intro u _; rw [hq, hp]; rfl
  have e2 : (ts.flatMap fun u => lent (K.busy u)) = [] := by
    rw [List.flatMap_eq_nil_iff]; intro u _; rw [hq]; rfl
  rw [e1, List.append_nil] at h1
  rw [e2] at h2 h3
  refine ⟨h1, ?_, ?_⟩
  · cases hm : K.blinkMode <;> rw [hm] at h2 <;> simpa using h2
  · rw [h3]
    cases hm : K.blinkMode <;> simp

theorem GFam.of_idle {dbg K pcs ow dl cnt} (hq : ∀ t, K.busy t = none) (hp : ∀ t, pcs t = .idle) (h1 : ow.Perm K.blink)
    (h2 : K.direct.Perm dl) (h3 : cnt = if dbg then K.blink.length % USIZE else 0) : GFam dbg K pcs ow dl cnt := by
  refine ⟨[], .nil, fun u _ => ⟨hq u, hp u⟩, by simpa using h1, ?_, ?_⟩
  · cases hm : K.blinkMode <;> simpa using h2
  · rw [h3]
    cases hm : K.blinkMode <;> simp

/-! ### The invariant -/

/-- The starting point of the `SyncBlinkAlloc`: the direct blocks belong to somebody else. -/
def GSS.origin (g0 : GSS) (D : List BaseBlk) : SS := { g0.s with w := { g0.s.w with held := D ++ g0.s.w.held } }

structure GSInv (g0 g : GSS) (cs : List Chunk) (D : List BaseBlk) (K : GSBook) (I : Book) (B : Nat → List Owned) : Prop where
  inner : SInv (g0.origin D) g.s cs I B
  mode : g.enabled = K.blinkMode
  fam : GFam g.s.w.debug K g.pcs I.owned (D.map BaseBlk.own) g.allocations
  good : ∀ d ∈ D, d.Good
  sz : ∀ b ∈ K.blink, 0 < b.size ∧ b.len = b.size
  dlg : DLog g.dlog D
  dbg : g.s.w.debug = g0.s.w.debug
  thr : ∀ t, GTOK K.blinkMode g.s.w.mem (K.snap t) (I.snap t) (K.busy t) (g.pcs t) (I.busy t)

theorem GSStart.inv {g : GSS} (h : GSStart g) : GSInv g g [] [] GSBook.empty Book.empty (fun _ => []) where
  inner := h.blink.inv
  mode := h.enabled
  fam := .of_idle (fun _ => rfl) h.pcs (.refl _) (.refl _) (by rw [h.zero]; simp [GSBook.empty, GBook.empty])
  good := by simp
  sz := by simp [GSBook.empty, GBook.empty]
  dlg := by rw [h.dlog]; exact ⟨rfl, trivial⟩
  dbg := rfl
  thr := fun t => by rw [h.pcs t]; exact .idle

theorem GSInv.dinv {g0 g cs D K I B} (h : GSInv g0 g cs D K I B) : DInv { g.s.w with log := g.dlog } cs D g0.s.w.held :=
  ⟨h.inner.arena.congr rfl rfl rfl, h.good⟩

/-- Blocks of blink mode are blocks of the `SyncBlinkAlloc`. -/
theorem GSInv.blink_mem {g0 g cs D K I B} (h : GSInv g0 g cs D K I B) {b : Owned} (hb : b ∈ K.blink) : b ∈ I.owned := by
  obtain ⟨ts, _, _, h1, _⟩ := h.fam
  exact h1.mem_iff.mpr (List.mem_append_left _ hb)

theorem GSInv.blink_lok {g0 g cs D K I B} (h : GSInv g0 g cs D K I B) : LOK cs K.blink := by
  obtain ⟨ts, _, _, h1, _⟩ := h.fam
  exact (h.inner.fam.owned.perm h1).sublist (List.sublist_append_left _ _)

theorem GSInv.direct_mem {g0 g cs D K I B} (h : GSInv g0 g cs D K I B) {b : Owned} (hb : b ∈ K.direct) : ∃ d ∈ D, b = d.own := by
  obtain ⟨ts, _, _, _, h2, _⟩ := h.fam
  obtain ⟨d, hd, he⟩ := List.mem_map.mp (h2.mem_iff.mp (List.mem_append_left _ hb))
  exact ⟨d, hd, he.symm⟩

/-- A byte of a direct block is in no chunk. -/
theorem GSInv.direct_out {g0 g cs D K I B} (h : GSInv g0 g cs D K I B) {d : BaseBlk} (hd : d ∈ D) {x : Nat} (hx : d.own.Has x) :
    ∀ c ∈ cs, x < c.start ∨ c.end_ ≤ x := by
  intro c hc
  have h3 := h.inner.arena.foreign (List.mem_append_left _ hd) hc
  have h4 := (h.good d hd).len
  have hok := h.inner.arena.ok c hc
  have := hok.lo; have := hok.hi
  simp only [BaseBlk.own, granted, Owned.Has] at hx
  omega

theorem GSInv.direct_pos {g0 g cs D K I B} (h : GSInv g0 g cs D K I B) {d : BaseBlk} (hd : d ∈ D) : 0 < d.addr :=
  (h.inner.arena.held.rng d (h.dinv.mem hd)).1

/-- Bytes of the `SyncBlinkAlloc` in use are elsewhere, seen from a direct call. -/
theorem GSInv.used_elsewhere {g0 g cs D K I B} (h : GSInv g0 g cs D K I B) {d? : Option BaseBlk} (hd : ∀ d, d? = some d → d ∈ D)
    {x : Nat} (hx : InUsed cs x 1) : Elsewhere { g.s.w with log := g.dlog } d? x := by
  obtain ⟨c, hc, h1, h2⟩ := hx
  have hok := h.inner.arena.ok c hc
  have := hok.hi
  refine ⟨c.blk, h.inner.arena.mem_held hc, ?_, by simp only [Chunk.blk]; omega, by simp only [Chunk.blk]; omega⟩
  intro he
  exact h.dinv.not_chunk (hd _ he.symm) hc rfl

theorem GSInv.direct_elsewhere {g0 g cs D K I B} (h : GSInv g0 g cs D K I B) {d : BaseBlk} {d? : Option BaseBlk} (hd : d ∈ D)
    (hne : some d ≠ d?) {x : Nat} (hx : d.own.Has x) : Elsewhere { g.s.w with log := g.dlog } d? x := by
  have := (h.good d hd).len
  exact ⟨d, h.dinv.mem hd, hne, hx.1, by have := hx.2; simp only [BaseBlk.own, granted] at this; omega⟩

/-- Blocks in the hands of the program and of the threads inside are apart. -/
theorem GSInv.apart {g0 g cs D K I B} (h : GSInv g0 g cs D K I B) : (I.owned ++ D.map BaseBlk.own).Pairwise Owned.Apart := by
  rw [List.pairwise_append]
  refine ⟨h.inner.fam.owned.apart, ?_, ?_⟩
  · rw [List.pairwise_map]
    refine (List.Pairwise.and_mem.mp h.dinv.pairwise).imp ?_
    rintro a b ⟨ha, hb, hab⟩ x ⟨hx, hy⟩
    have h1 := (h.good a ha).len
    have h2 := (h.good b hb).len
    simp only [BaseBlk.own, granted, Owned.Has, BaseBlk.Disjoint] at hx hy hab
    omega
  · rintro a ha b hb x ⟨hx, hy⟩
    obtain ⟨d, hd, rfl⟩ := List.mem_map.mp hb
    obtain ⟨c, hc, h1, h2⟩ := h.inner.fam.owned.byte ha hx
    have := h.direct_out hd hy c hc
    have := (h.inner.arena.ok c hc).hi
    omega

theorem GSInv.all_apart {g0 g cs D K I B} (h : GSInv g0 g cs D K I B) : K.all.Pairwise Owned.Apart := by
  obtain ⟨ts, _, _, h1, h2, _⟩ := h.fam
  have hp := ((h1.append h2.symm).pairwise_iff fun h => Owned.Apart.symm h).mp h.apart
  refine hp.sublist ?_
  exact (List.sublist_append_left _ _).append (List.sublist_append_left _ _)

theorem GSInv.addr_inj {g0 g cs D K I B} (h : GSInv g0 g cs D K I B) {b b' : Owned} (hb : b ∈ K.all) (hb' : b' ∈ K.all)
    (he : b.addr = b'.addr) : b = b' := by
  have hpos : ∀ c ∈ K.all, c.Has c.addr := by
    intro c hc
    rcases List.mem_append.mp hc with hc | hc
    · have := h.sz c hc
      exact ⟨Nat.le_refl _, by omega⟩
    · obtain ⟨d, hd, rfl⟩ := h.direct_mem hc
      have := (h.good d hd).pos
      exact ⟨Nat.le_refl _, by simp only [BaseBlk.own, granted]; omega⟩
  apply Decidable.byContradiction
  intro hne
  have h1 := ((List.perm_cons_erase hb).pairwise_iff fun h => Owned.Apart.symm h).mp h.all_apart
  rw [List.pairwise_cons] at h1
  have h1 := h1.1 b' ((List.mem_erase_of_ne (Ne.symm hne)).mpr hb')
  exact h1 b.addr ⟨hpos b hb, by rw [he]; exact hpos b' hb'⟩

/-- Blocks of the `SyncBlinkAlloc` are not at address 0. -/
theorem SInv.pos {s0 s cs K B} (h : SInv s0 s cs K B) {b : Owned} (hb : b ∈ K.owned) : 0 < b.addr := by
  obtain ⟨_, _, _, c, hc, h1, _⟩ := h.fam.owned.each b hb
  have := (h.arena.ok c hc).lo
  have := (h.arena.held.rng _ (h.arena.mem_held hc)).1
  omega

theorem GSInv.busy_none {g0 g cs D K I B} (h : GSInv g0 g cs D K I B) {t : Nat} (hb : K.busy t = none) :
    g.pcs t = .idle ∧ I.busy t = none := by
  have := h.thr t
  rw [hb] at this
  exact this.of_none

/-- A step of thread `t`. -/
theorem GSInv.upd {g0 g cs D K I B} (h : GSInv g0 g cs D K I B) (t : Nat) {g' : GSS} {cs' D' I' B'} {K' : GSBook}
    (hin : SInv (g0.origin D') g'.s cs' I' B') (hmode : g'.enabled = g.enabled ∧ K'.blinkMode = K.blinkMode)
    (hfam : GFam g'.s.w.debug K' g'.pcs I'.owned (D'.map BaseBlk.own) g'.allocations) (hgood : ∀ d ∈ D', d.Good)
    (hsz : ∀ b ∈ K'.blink, 0 < b.size ∧ b.len = b.size) (hdl : DLog g'.dlog D') (hdbg : g'.s.w.debug = g.s.w.debug)
    (hfr : ∀ u, u ≠ t → (∀ b ∈ xOf K.blinkMode (K.busy u) (g.pcs u), ∀ x, b.Has x → g'.s.w.mem x = g.s.w.mem x) ∧
      (K.blinkMode = false → ∀ b ∈ lent (K.busy u), ∀ x, b.Has x → g'.s.w.mem x = g.s.w.mem x))
    (hu : ∀ u, u ≠ t → K'.busy u = K.busy u ∧ K'.snap u = K.snap u ∧ g'.pcs u = g.pcs u ∧ I'.busy u = I.busy u ∧ I'.snap u = I.snap u)
    (ht : GTOK K.blinkMode g'.s.w.mem (K'.snap t) (I'.snap t) (K'.busy t) (g'.pcs t) (I'.busy t)) :
    GSInv g0 g' cs' D' K' I' B' where
  inner := hin
  mode := by rw [hmode.1, hmode.2]; exact h.mode
  fam := hfam
  good := hgood
  sz := hsz
  dlg := hdl
  dbg := hdbg.trans h.dbg
  thr := by
    intro u
    rw [hmode.2]
    by_cases he : u = t
    · subst he; exact ht
    · obtain ⟨h1, h2, h3, h4, h5⟩ := hu u he
      rw [h1, h2, h3, h4, h5]
      exact (h.thr u).frame (hfr u he).1 (hfr u he).2

end Blink
