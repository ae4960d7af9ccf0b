import Verif.Proofs.Frame
import Verif.Spec.Global
/-
  Blocks obtained directly from the underlying allocator, next to an arena.
-/
namespace Blink

theorem BaseBlk.Disjoint.symm' {b c : BaseBlk} (h : b.Disjoint c) : c.Disjoint b := h.symm

/-- The block a directly obtained base block stands for. -/
def BaseBlk.own (b : BaseBlk) : Owned := granted b.addr b.req

/-- A directly obtained block meets its layout, which is not empty. -/
structure BaseBlk.Good (b : BaseBlk) : Prop where
  pos : 0 < b.req.size
  len : b.req.size ≤ b.len
  al  : b.addr % b.req.align = 0
  pow : ∃ k, b.req.align = 2 ^ k

theorem AInv.congr {w w' cs F} (h : AInv w cs F) (hm : w'.mem = w.mem) (hh : w'.held = w.held) (ht : w'.top = w.top) :
    AInv w' cs F :=
  ⟨by rw [hm]; exact h.rep, h.ok, by rw [hh]; exact h.perm, ⟨by rw [ht]; exact h.held.top, by rw [hh]; exact h.held.dis,
    by rw [hh, ht]; exact h.held.rng⟩, h.cum⟩

/-- Of two held blocks that share an address one is the other. -/
theorem HeldOK.inj {w : World} (h : HeldOK w) {b c : BaseBlk} (hb : b ∈ w.held) (hc : c ∈ w.held) {x : Nat}
    (hx : b.addr ≤ x ∧ x < b.addr + b.len) (hy : c.addr ≤ x ∧ x < c.addr + c.len) : b = c := by
  have hd := h.dis
  generalize w.held = l at hb hc hd
  induction l with
  | nil => cases hb
  | cons a t ih =>
    rw [List.pairwise_cons] at hd
    rcases List.mem_cons.mp hb with rfl | hb'
    · rcases List.mem_cons.mp hc with rfl | hc
      · rfl
      · have := hd.1 c hc
        unfold BaseBlk.Disjoint at this
        omega
    · rcases List.mem_cons.mp hc with rfl | hc
      · have := hd.1 b hb'
        unfold BaseBlk.Disjoint at this
        omega
      · exact ih hb' hc hd.2

/-- `deallocate`, `grow` and `shrink` find the block meant. -/
theorem HeldOK.find {w : World} (h : HeldOK w) {d : BaseBlk} (hd : d ∈ w.held) (hg : d.Good) {l : Layout} (hl : d.req = l) :
    w.held.find? (fun b => b.fits d.addr l) = some d := by
  subst hl
  have hex : d.fits d.addr d.req = true := by simp [BaseBlk.fits, hg.len]
  cases hf : w.held.find? (fun b => b.fits d.addr d.req) with
  | none =>
    rw [List.find?_eq_none] at hf
    exact absurd hex (hf d hd)
  | some b =>
    have hb := List.find?_some hf
    have hm := List.mem_of_find?_eq_some hf
    simp only [BaseBlk.fits, Bool.and_eq_true, decide_eq_true_eq] at hb
    have := hg.pos; have := hg.len
    rw [h.inj hm hd (x := d.addr) (by omega) (by omega)]

theorem AInv.drop {w cs F} (h : AInv w cs F) {d : BaseBlk} (hd : d ∈ F) {m' : Nat → Byte}
    (hm : ∀ c ∈ cs, ∀ x, c.start ≤ x → x < c.start + 32 → m' x = w.mem x) :
    AInv { w with held := w.held.erase d, mem := m' } cs (F.erase d) := by
  refine ⟨h.rep.congr hm, h.ok, ?_, ⟨h.held.top, h.held.dis.sublist List.erase_sublist,
    fun b hb => h.held.rng b (List.mem_of_mem_erase hb)⟩, h.cum⟩
  have h1 : (cs.map Chunk.blk ++ F).Perm (d :: (cs.map Chunk.blk ++ F.erase d)) :=
    (List.Perm.append_left _ (List.perm_cons_erase hd)).trans List.perm_middle
  have h2 := (h.perm.trans h1).erase d
  rw [List.erase_cons_head] at h2
  exact h2

theorem AInv.add {w cs F} (h : AInv w cs F) {l : Layout} {sl : Slice} {m' : Nat → Byte} (hf : freshOk w l sl = true)
    (hm : ∀ c ∈ cs, ∀ x, c.start ≤ x → x < c.start + 32 → m' x = w.mem x) :
    AInv { w with held := ⟨sl.addr, sl.len, l⟩ :: w.held, mem := m' } cs (⟨sl.addr, sl.len, l⟩ :: F) := by
  have h1 := h.addHeld (cl := w.calls) (lg := w.log) hf
  exact ⟨h.rep.congr hm, h1.ok, h1.perm, ⟨h1.held.top, h1.held.dis, h1.held.rng⟩, h1.cum⟩

theorem freshOk_facts {w : World} {l : Layout} {s : Slice} (h : freshOk w l s = true) :
    0 < s.addr ∧ s.addr % l.align = 0 ∧ l.size ≤ s.len ∧ s.addr + s.len < w.top ∧
    ∀ b ∈ w.held, s.len = 0 ∨ b.len = 0 ∨ s.addr + s.len ≤ b.addr ∨ b.addr + b.len ≤ s.addr := by
  simp only [freshOk, Bool.and_eq_true, decide_eq_true_eq, List.all_eq_true] at h
  exact ⟨h.1.1.1.1.1, h.1.1.1.1.2, h.1.1.1.2, h.1.2, h.2⟩

/-- Directly obtained blocks `D`, next to the chunks `cs` and the blocks `F` of others. -/
structure DInv (w : World) (cs : List Chunk) (D F : List BaseBlk) : Prop where
  arena : AInv w cs (D ++ F)
  good : ∀ d ∈ D, d.Good

/-- Byte `x` lies in a held block other than `d`. -/
def Elsewhere (w : World) (d : Option BaseBlk) (x : Nat) : Prop :=
  ∃ b ∈ w.held, some b ≠ d ∧ b.addr ≤ x ∧ x < b.addr + b.len

theorem DInv.mem {w cs D F} (h : DInv w cs D F) {d : BaseBlk} (hd : d ∈ D) : d ∈ w.held :=
  h.arena.perm.mem_iff.mpr (List.mem_append_right _ (List.mem_append_left _ hd))

theorem AInv.hdr_byte {w cs F} (h : AInv w cs F) {c : Chunk} (hc : c ∈ cs) {x : Nat} (h1 : c.start ≤ x) (h2 : x < c.start + 32) :
    c.blk ∈ w.held ∧ c.blk.addr ≤ x ∧ x < c.blk.addr + c.blk.len := by
  have hk := h.ok c hc
  have := hk.lo; have := hk.hi
  exact ⟨h.mem_held hc, h1, by simp only [Chunk.blk]; omega⟩

theorem DInv.not_chunk {w cs D F} (h : DInv w cs D F) {d : BaseBlk} (hd : d ∈ D) {c : Chunk} (hc : c ∈ cs) : c.blk ≠ d := by
  intro he
  have := h.arena.foreign (List.mem_append_left _ hd) hc
  rw [← he] at this
  have hk := h.arena.ok c hc
  have := hk.lo; have := hk.hi
  unfold Chunk.blk at *
  dsimp only at *
  omega

/-- A change that leaves all other blocks alone leaves the chunk headers alone. -/
theorem DInv.hdrs {w cs D F} (h : DInv w cs D F) {d : Option BaseBlk} (hd : ∀ d', d = some d' → d' ∈ D) {m' : Nat → Byte}
    (hm : ∀ x, Elsewhere w d x → m' x = w.mem x) : ∀ c ∈ cs, ∀ x, c.start ≤ x → x < c.start + 32 → m' x = w.mem x := by
  intro c hc x h1 h2
  obtain ⟨a1, a2, a3⟩ := h.arena.hdr_byte hc h1 h2
  refine hm x ⟨c.blk, a1, ?_, a2, a3⟩
  intro he
  exact h.not_chunk (hd _ he.symm) hc rfl

/-- What a direct allocation does. -/
inductive DAlloc (w : World) (l : Layout) (zero : Bool) : Option Slice → World → Prop
  | refused (h : w.oracle w.calls = none) : DAlloc w l zero none { w with calls := w.calls + 1, log := .refused l :: w.log }
  | given (s : Slice) (m' : Nat → Byte) (h : w.oracle w.calls = some s) (hf : freshOk w l s = true)
      (hm : ∀ x, x < s.addr ∨ s.addr + s.len ≤ x → m' x = w.mem x)
      (hz : zero = true → ∀ i, i < s.len → m' (s.addr + i) = .raw 0) :
      DAlloc w l zero (some s) { w with calls := w.calls + 1, log := .alloc l s :: w.log,
                                        held := ⟨s.addr, s.len, l⟩ :: w.held, mem := m' }

theorem baseAlloc_dspec (w : World) (l : Layout) :
    (∃ e, BadAnswer w e ∧ baseAlloc l w = .error e) ∨ ∃ r w', baseAlloc l w = .ok (r, w') ∧ DAlloc w l false r w' := by
  unfold baseAlloc
  cases ho : w.oracle w.calls with
  | none => exact .inr ⟨_, _, rfl, .refused ho⟩
  | some s =>
    dsimp only
    by_cases hf : freshOk w l s = true
    · rw [if_pos hf]
      exact .inr ⟨_, _, rfl, .given s _ ho hf (fun x hx => setBytes_out (by omega)) (by simp)⟩
    · rw [if_neg hf]
      exact .inl ⟨_, ⟨l, s, rfl, ho, by simpa using hf⟩, rfl⟩

theorem baseAllocZeroed_dspec (w : World) (l : Layout) :
    (∃ e, BadAnswer w e ∧ baseAllocZeroed l w = .error e) ∨
    ∃ r w', baseAllocZeroed l w = .ok (r, w') ∧ DAlloc w l true r w' := by
  unfold baseAllocZeroed
  rcases baseAlloc_dspec w l with ⟨e, hb, he⟩ | ⟨r, w', he, hr⟩
  · exact .inl ⟨e, hb, by rw [bind_err he]⟩
  · right
    rw [bind_ok he]
    cases hr with
    | refused h => exact ⟨_, _, rfl, .refused h⟩
    | given s m' h hf hm hz =>
      dsimp only
      refine ⟨some s, { w with calls := w.calls + 1, log := .alloc l s :: w.log, held := ⟨s.addr, s.len, l⟩ :: w.held,
                               mem := setBytes m' s.addr s.len (fun _ => .raw 0) }, ?_, .given s _ h hf ?_ ?_⟩
      · have hw : ∀ w1 : World, (⟨s.addr, s.len, l⟩ : BaseBlk) ∈ w1.held →
            writeZeros s.addr s.len w1 = .ok ((), { w1 with mem := setBytes w1.mem s.addr s.len (fun _ => .raw 0) }) := by
          intro w1 hb
          unfold writeZeros
          rw [if_pos]
          exact .inr (accessible_of hb (Nat.le_refl _) (Nat.le_refl _))
        rw [bind_ok (hw _ List.mem_cons_self)]
        rfl
      · intro x hx; rw [setBytes_out (by omega), hm x hx]
      · intro _ i hi; rw [setBytes_in hi]

theorem DAlloc.inv {w cs D F l z s w'} (h : DInv w cs D F) (hl : l.Valid) (hp : 0 < l.size) (hr : DAlloc w l z (some s) w') :
    DInv w' cs (⟨s.addr, s.len, l⟩ :: D) F ∧ 0 < s.addr ∧ (∀ x, Elsewhere w none x → w'.mem x = w.mem x) := by
  cases hr with
  | given _ m' ho hf hm hz =>
    obtain ⟨f1, f2, f3, f4, f5⟩ := freshOk_facts hf
    have hfr : ∀ x, Elsewhere w none x → m' x = w.mem x := by
      rintro x ⟨b, hb, _, h1, h2⟩
      have := f5 b hb
      exact hm x (by omega)
    refine ⟨⟨?_, ?_⟩, f1, hfr⟩
    · exact (h.arena.add (m' := m') hf (h.hdrs (d := none) (by simp) hfr)).congr rfl rfl rfl
    · intro d hd
      rcases List.mem_cons.mp hd with rfl | hd
      · exact ⟨hp, f3, f2, hl.1⟩
      · exact h.good d hd

theorem DAlloc.none_inv {w cs D F l z w'} (h : DInv w cs D F) (hr : DAlloc w l z none w') :
    DInv w' cs D F ∧ w'.mem = w.mem ∧ w'.held = w.held := by
  cases hr with
  | refused ho => exact ⟨⟨h.arena.congr rfl rfl rfl, h.good⟩, rfl, rfl⟩

theorem DAlloc.consts {w l z r w'} (hr : DAlloc w l z r w') :
    w'.debug = w.debug ∧ w'.top = w.top ∧ w'.oracle = w.oracle ∧ w'.calls = w.calls + 1 := by
  cases hr <;> exact ⟨rfl, rfl, rfl, rfl⟩

/-- The world after `d` was given back directly. -/
def freeDirect (w : World) (d : BaseBlk) : World :=
  { w with held := w.held.erase d, log := .dealloc d.addr d.req :: w.log
           mem := setBytes w.mem d.addr d.len (fun _ => .uninit) }

theorem baseDealloc_dspec {w cs D F} (h : DInv w cs D F) {d : BaseBlk} (hd : d ∈ D) :
    baseDealloc d.addr d.req w = .ok ((), freeDirect w d) := by
  unfold baseDealloc
  rw [h.arena.held.find (h.mem hd) (h.good d hd) rfl]
  rfl

theorem HeldOK.else {w : World} (h : HeldOK w) {d : BaseBlk} (hd : d ∈ w.held) {x : Nat} (hx : Elsewhere w (some d) x) :
    x < d.addr ∨ d.addr + d.len ≤ x := by
  obtain ⟨b, hb, hne, h1, h2⟩ := hx
  apply Decidable.byContradiction
  intro hc
  exact hne (by rw [h.inj hb hd ⟨h1, h2⟩ ⟨by omega, by omega⟩])

theorem DInv.free {w cs D F} (h : DInv w cs D F) {d : BaseBlk} (hd : d ∈ D) :
    DInv (freeDirect w d) cs (D.erase d) F ∧ ∀ x, Elsewhere w (some d) x → (freeDirect w d).mem x = w.mem x := by
  have hfr : ∀ x, Elsewhere w (some d) x → (freeDirect w d).mem x = w.mem x := by
    intro x hx
    have := h.arena.held.else (h.mem hd) hx
    exact setBytes_out (m := w.mem) (f := fun _ => .uninit) (by omega)
  refine ⟨⟨?_, fun e he => h.good e (List.mem_of_mem_erase he)⟩, hfr⟩
  have h1 := h.arena.drop (m' := (freeDirect w d).mem) (List.mem_append_left _ hd)
    (h.hdrs (d := some d) (by rintro _ ⟨⟩; exact hd) hfr)
  rw [List.erase_append_left _ hd] at h1
  exact h1.congr rfl rfl rfl

/-- What `grow` or `shrink` of a directly obtained block does, if called as it has to be. -/
inductive DResize (w : World) (d : BaseBlk) (new : Layout) : Option Slice → World → Prop
  | refused (h : w.oracle w.calls = none) : DResize w d new none { w with calls := w.calls + 1, log := .refused new :: w.log }
  | given (s : Slice) (m' : Nat → Byte) (h : w.oracle w.calls = some s)
      (hf : freshOk { w with held := w.held.erase d } new s = true)
      (hm : ∀ x, Elsewhere w (some d) x → m' x = w.mem x)
      (hk : ∀ i, i < min d.req.size new.size → m' (s.addr + i) = w.mem (d.addr + i)) :
      DResize w d new (some s) { w with calls := w.calls + 1, log := .alloc new s :: .dealloc d.addr d.req :: w.log,
                                        held := ⟨s.addr, s.len, new⟩ :: w.held.erase d, mem := m' }

theorem baseResize_dspec {w cs D F} (h : DInv w cs D F) {d : BaseBlk} (hd : d ∈ D) {g : Bool} {new : Layout}
    (hg : if g then d.req.size ≤ new.size else new.size ≤ d.req.size) :
    (∃ l sl, w.oracle w.calls = some sl ∧ freshOk { w with held := w.held.erase d } l sl = false ∧
      baseResize g d.addr d.req new w = .error (.env l sl)) ∨
    ∃ r w', baseResize g d.addr d.req new w = .ok (r, w') ∧ DResize w d new r w' := by
  unfold baseResize
  rw [h.arena.held.find (h.mem hd) (h.good d hd) rfl]
  dsimp only
  rw [if_neg (by rintro ⟨rfl, h2⟩; rw [if_pos rfl] at hg; omega), if_neg (by rintro ⟨rfl, h2⟩; rw [if_neg (by simp)] at hg; omega)]
  cases ho : w.oracle w.calls with
  | none => exact .inr ⟨_, _, rfl, .refused ho⟩
  | some s =>
    dsimp only
    by_cases hf : freshOk { w with held := w.held.erase d } new s = true
    · rw [if_pos hf]
      have hff := freshOk_facts hf
      refine .inr ⟨_, _, rfl, .given s _ ho hf (fun x hx => ?_) (fun i hi => ?_)⟩
      · have h1 := h.arena.held.else (h.mem hd) hx
        obtain ⟨b, hb, hne, h2, h3⟩ := hx
        have := hff.2.2.2.2 b ((List.mem_erase_of_ne fun he => hne (by rw [he])).mpr hb)
        rw [setBytes_out (by omega), setBytes_out (by omega)]
      · rw [setBytes_in (by omega), if_pos hi]
    · rw [if_neg hf]
      exact .inl ⟨new, s, rfl, by simpa using hf, rfl⟩

theorem DResize.inv {w cs D F d new s w'} (h : DInv w cs D F) (hd : d ∈ D) (hl : new.Valid) (hp : 0 < new.size)
    (hr : DResize w d new (some s) w') :
    DInv w' cs (⟨s.addr, s.len, new⟩ :: D.erase d) F ∧ 0 < s.addr ∧ (∀ x, Elsewhere w (some d) x → w'.mem x = w.mem x) ∧
    (∀ i, i < min d.req.size new.size → w'.mem (s.addr + i) = w.mem (d.addr + i)) := by
  cases hr with
  | given _ m' ho hf hm hk =>
    obtain ⟨f1, f2, f3, f4, f5⟩ := freshOk_facts hf
    refine ⟨⟨?_, ?_⟩, f1, hm, hk⟩
    · have h1 := h.arena.drop (m' := w.mem) (List.mem_append_left _ hd) (fun _ _ _ _ _ => rfl)
      rw [List.erase_append_left _ hd] at h1
      have h2 := h1.add (l := new) (sl := s) (m' := m') hf (h.hdrs (d := some d) (by rintro _ ⟨⟩; exact hd) hm)
      exact h2.congr rfl rfl rfl
    · intro e he
      rcases List.mem_cons.mp he with rfl | he
      · exact ⟨hp, f3, f2, hl.1⟩
      · exact h.good e (List.mem_of_mem_erase he)

theorem DResize.none_inv {w cs D F d new w'} (h : DInv w cs D F) (hr : DResize w d new none w') :
    DInv w' cs D F ∧ w'.mem = w.mem ∧ w'.held = w.held := by
  cases hr with
  | refused ho => exact ⟨⟨h.arena.congr rfl rfl rfl, h.good⟩, rfl, rfl⟩

theorem DResize.consts {w d new r w'} (hr : DResize w d new r w') :
    w'.debug = w.debug ∧ w'.top = w.top ∧ w'.oracle = w.oracle ∧ w'.calls = w.calls + 1 := by
  cases hr <;> exact ⟨rfl, rfl, rfl, rfl⟩

/-! ### The blocks a log leaves open -/

theorem eraseP_addr {D : List BaseBlk} (hp : D.Pairwise BaseBlk.Disjoint) (hg : ∀ d ∈ D, d.Good) {d : BaseBlk} (hd : d ∈ D) :
    D.eraseP (fun b => decide (b.addr = d.addr)) = D.erase d := by
  induction D with
  | nil => cases hd
  | cons a t ih =>
    rw [List.pairwise_cons] at hp
    by_cases ha : a = d
    · subst ha
      rw [List.eraseP_cons_of_pos (by simp), List.erase_cons_head]
    · have hd' : d ∈ t := by
        rcases List.mem_cons.mp hd with h | h
        · exact absurd h.symm ha
        · exact h
      have hne : a.addr ≠ d.addr := by
        have h1 := hp.1 d hd'
        have g1 := hg a List.mem_cons_self
        have g2 := hg d hd
        have := g1.pos; have := g1.len; have := g2.pos; have := g2.len
        unfold BaseBlk.Disjoint at h1
        omega
      rw [List.eraseP_cons_of_neg (by simpa using hne), List.erase_cons_tail (by simpa using ha),
        ih hp.2 (fun e he => hg e (List.mem_cons_of_mem _ he)) hd']

theorem DInv.pairwise {w cs D F} (h : DInv w cs D F) : D.Pairwise BaseBlk.Disjoint := by
  have := h.arena.pairwise
  rw [List.pairwise_append] at this
  have := this.2.1
  rw [List.pairwise_append] at this
  exact this.1

/-- The direct calls leave exactly `D` open and were made with fitting layouts. -/
def DLog (log : List BaseEvent) (D : List BaseBlk) : Prop := openBlocks log = D ∧ FreesOK log

theorem DLog.dealloc {w cs D F log} (h : DInv w cs D F) (hl : DLog log D) {d : BaseBlk} (hd : d ∈ D) :
    DLog (.dealloc d.addr d.req :: log) (D.erase d) := by
  have hg := h.good d hd
  refine ⟨?_, ⟨d, by rw [hl.1]; exact hd, rfl, rfl, Nat.le_refl _, hg.len⟩, hl.2⟩
  simp only [openBlocks]
  rw [hl.1, eraseP_addr h.pairwise h.good hd]

theorem DLog.refused {log D l} (h : DLog log D) : DLog (.refused l :: log) D := h

theorem DLog.alloc {log D l s} (h : DLog log D) : DLog (.alloc l s :: log) (⟨s.addr, s.len, l⟩ :: D) :=
  ⟨by simp only [openBlocks, h.1], h.2⟩

end Blink
