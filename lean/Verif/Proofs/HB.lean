import Verif.Proofs.HBGo
import Verif.Props.SyncDRF
/-
  The invariant behind the absence of data races: which accesses happen before what.
-/
namespace Blink

/-! ### Where bytes can be -/

theorem SInv.ownedUsed {s0 s cs K B} (hi : SInv s0 s cs K B) {b x} (hb : b ∈ K.owned) (hx : b.Has x) : InUsed cs x 1 := by
  obtain ⟨R, hL, _, _⟩ := hi.fam.focus 0
  exact hL.byte (List.mem_append_left _ hb) hx

theorem SInv.blkUsed {s0 s cs K B} (hi : SInv s0 s cs K B) {t b x} (hb : b ∈ B t) (hx : b.Has x) : InUsed cs x 1 := by
  obtain ⟨R, hL, _, _⟩ := hi.fam.focus t
  exact hL.byte (by simp [hb]) hx

theorem SInv.blkOwned {s0 s cs K B} (hi : SInv s0 s cs K B) {t b b' x} (hb : b ∈ B t) (hx : b.Has x) (hb' : b' ∈ K.owned) :
    ¬ b'.Has x := by
  intro hx'
  obtain ⟨R, hL, _, _⟩ := hi.fam.focus t
  exact (List.pairwise_append.mp hL.apart).2.2 b' hb' b (List.mem_append_left _ hb) x ⟨hx', hx⟩

theorem SInv.blkBlk {s0 s cs K B} (hi : SInv s0 s cs K B) {t u b b' x} (htu : u ≠ t) (hb : b ∈ B t) (hx : b.Has x) (hb' : b' ∈ B u) :
    ¬ b'.Has x := by
  intro hx'
  obtain ⟨R, hL, hR, _⟩ := hi.fam.focus t
  have := List.pairwise_append.mp (List.pairwise_append.mp hL.apart).2.1
  exact this.2.2 b hb b' (hR u htu b' hb') x ⟨hx, hx'⟩

/-- The free part of the newest chunk. -/
theorem SInv.inRoom {s0 s cs K B} (hi : SInv s0 s cs K B) {x} (h : s.InRoom x) :
    ∃ c tl, cs = c :: tl ∧ s.root = c.start ∧ c.cursor ≤ x ∧ x < c.end_ ∧ c.start + 32 ≤ x := by
  obtain ⟨p, e, h1, h2, h3⟩ := h
  rw [hi.room] at h1
  cases hcs : cs with
  | nil => rw [hcs] at h1; cases h1
  | cons c tl =>
    rw [hcs] at h1
    simp only [List.head?_cons, Option.map_some, Option.some.injEq, Prod.mk.injEq] at h1
    obtain ⟨rfl, rfl⟩ := h1
    have := (hi.arena.ok c (by rw [hcs]; exact List.mem_cons_self)).lo
    exact ⟨c, tl, rfl, by rw [hi.root, hcs]; rfl, h2, h3, by omega⟩

theorem SInv.roomHeld {s0 s cs K B} (hi : SInv s0 s cs K B) {x} (h : s.InRoom x) : s.w.Holds x := by
  obtain ⟨c, tl, hcs, _, h1, h2, h3⟩ := hi.inRoom h
  have hc : c ∈ cs := by rw [hcs]; exact List.mem_cons_self
  refine ⟨c.blk, hi.arena.mem_held hc, ?_⟩
  simp only [Chunk.blk]; omega

theorem SInv.roomUsed {s0 s cs K B} (hi : SInv s0 s cs K B) {x} (h : s.InRoom x) : ¬ InUsed cs x 1 := by
  obtain ⟨c, tl, hcs, _, h1, h2, h3⟩ := hi.inRoom h
  have hc : c ∈ cs := by rw [hcs]; exact List.mem_cons_self
  rintro ⟨d, hd, h4, h5⟩
  have hod := hi.arena.ok d hd
  have := hod.lo; have := hod.hi
  rcases hi.arena.chunk_dis2 hc hd with rfl | h6
  · omega
  · omega

/-- The header of a chunk. -/
theorem SInv.hdr {s0 s cs K B} (hi : SInv s0 s cs K B) {Bk : BaseBlk} (hB : Bk ∈ openBlocks s.w.log) :
    ∃ d ∈ cs, Bk.addr = d.start ∧ Bk = d.blk := by
  rw [hi.log.1, List.mem_map] at hB
  obtain ⟨d, hd, rfl⟩ := hB
  exact ⟨d, hd, rfl, rfl⟩

theorem SInv.hdrHeld {s0 s cs K B} (hi : SInv s0 s cs K B) {Bk : BaseBlk} (hB : Bk ∈ openBlocks s.w.log) {x}
    (h1 : Bk.addr ≤ x) (h2 : x < Bk.addr + 32) : s.w.Holds x ∧ x < Bk.addr + Bk.len := by
  obtain ⟨d, hd, h3, rfl⟩ := hi.hdr hB
  have hok := hi.arena.ok d hd
  have := hok.lo; have := hok.hi
  have : x < d.blk.addr + d.blk.len := by simp only [Chunk.blk] at *; omega
  exact ⟨⟨d.blk, hi.arena.mem_held hd, h1, this⟩, this⟩

theorem SInv.hdrUsed {s0 s cs K B} (hi : SInv s0 s cs K B) {Bk : BaseBlk} (hB : Bk ∈ openBlocks s.w.log) {x}
    (h1 : Bk.addr ≤ x) (h2 : x < Bk.addr + 32) : ¬ InUsed cs x 1 := by
  intro hu
  obtain ⟨d, hd, h3, rfl⟩ := hi.hdr hB
  have := hi.arena.used_not_hdr hu hd
  omega

/-- A header that meets the header of the newest chunk. -/
theorem SInv.hdrRoot {s0 s cs K B} (hi : SInv s0 s cs K B) {Bk : BaseBlk} (hB : Bk ∈ openBlocks s.w.log) {x}
    (h1 : Bk.addr ≤ x) (h2 : x < Bk.addr + 32) (hr : s.root ≠ 0) (h3 : s.root ≤ x) (h4 : x < s.root + 32) :
    Bk.addr = s.root := by
  obtain ⟨d, hd, h5, rfl⟩ := hi.hdr hB
  obtain ⟨c, tl, hcs, hrt⟩ := hi.cons hr
  have hc : c ∈ cs := by rw [hcs]; exact List.mem_cons_self
  have hokc := hi.arena.ok c hc
  have := hokc.lo; have := hokc.hi
  have hokd := hi.arena.ok d hd
  have := hokd.lo; have := hokd.hi
  rcases hi.arena.chunk_dis2 hc hd with rfl | h6
  · exact h5.trans hrt.symm
  · omega

theorem SInv.headRoot {s0 s cs K B} (hi : SInv s0 s cs K B) {Bk : BaseBlk} (hB : (openBlocks s.w.log).head? = some Bk) :
    Bk ∈ openBlocks s.w.log ∧ Bk.addr = s.root := by
  refine ⟨List.mem_of_mem_head? hB, ?_⟩
  rw [hi.log.1] at hB
  cases hcs : cs with
  | nil => rw [hcs] at hB; cases hB
  | cons c tl =>
    rw [hcs] at hB
    simp only [List.map_cons, List.head?_cons, Option.some.injEq] at hB
    subst hB
    rw [hi.root, hcs]
    rfl

theorem SInv.rootHead {s0 s cs K B} (hi : SInv s0 s cs K B) (hr : s.root ≠ 0) :
    ∃ Bk, (openBlocks s.w.log).head? = some Bk ∧ Bk ∈ openBlocks s.w.log ∧ Bk.addr = s.root := by
  obtain ⟨c, tl, hcs, hrt⟩ := hi.cons hr
  have : (openBlocks s.w.log).head? = some c.blk := by rw [hi.log.1, hcs]; rfl
  exact ⟨c.blk, this, (hi.headRoot this).1, (hi.headRoot this).2⟩

/-! ### What a step accesses -/

/-- How thread `t` can access the byte at `x` in its next step. -/
theorem SInv.access {s0 s cs K B} (hi : SInv s0 s cs K B) {t ch x} (h : Touches s (.go t ch) x) :
    ((s.pcs t).holdsR = true ∨ (s.pcs t).holdsW = true) ∧
    ((Atomic s (.go t ch) x ∧ s.root ≠ 0 ∧ s.root ≤ x ∧ x < s.root + 8) ∨
     (¬ Atomic s (.go t ch) x ∧ s.root ≠ 0 ∧ s.root + 8 ≤ x ∧ x < s.root + 32) ∨
     (¬ Atomic s (.go t ch) x ∧ ¬ s.w.Holds x ∧ ∃ j, s.pcs t = .slow j) ∨
     (¬ Atomic s (.go t ch) x ∧ ∃ b ∈ B t, b.Has x)) := by
  have hs := h.sees
  refine ⟨Pc.sees_holds hs, ?_⟩
  have ht := hi.thr t
  obtain ⟨R, hL, _, _⟩ := hi.fam.focus t
  have hat : Atomic s (.go t ch) x = (match s.pcs t with
    | .load c _ | .cas c _ _ | .rload c _ _ _ | .rcas c _ _ _ _ | .free c _ _ => c ≤ x ∧ x < c + 8
    | _ => False) := rfl
  rw [hat]
  generalize s.pcs t = pc at ht hs ⊢
  generalize K.busy t = bz at ht
  generalize B t = bt at ht hL ⊢
  cases ht <;> first | exact hs.elim | skip
  case load hr hj => exact .inl ⟨hs, hr, hs⟩
  case cas hr hj =>
    have h1 := hs.1; have h2 := hs.2
    by_cases h3 : x < s.root + 8
    · exact .inl ⟨⟨h1, h3⟩, hr, h1, h3⟩
    · exact .inr (.inl ⟨fun h => h3 h.2, hr, by omega, by omega⟩)
  case rload hr hj ha hs' => exact .inl ⟨hs, hr, hs⟩
  case rcas hr hj ha hs' =>
    have h1 := hs.1; have h2 := hs.2
    by_cases h3 : x < s.root + 8
    · exact .inl ⟨⟨h1, h3⟩, hr, h1, h3⟩
    · exact .inr (.inl ⟨fun h => h3 h.2, hr, by omega, by omega⟩)
  case free hr hf => exact .inl ⟨hs, hr, hs⟩
  case slow j hj =>
    rcases hs with hs | hs
    · exact .inr (.inr (.inl ⟨fun h => h, hs, j, rfl⟩))
    · exact .inr (.inl ⟨fun h => h, hs⟩)
  case copy b p old new wr sl k j hk hc =>
    refine .inr (.inr (.inr ⟨fun h => h, ?_⟩))
    obtain ⟨hk', h⟩ := hs
    rcases h with rfl | rfl
    · cases j with
      | resize hf hv hs =>
        have := hf.1; have := hf.2.2.2
        exact ⟨b, List.mem_cons_of_mem _ List.mem_cons_self, by simp only [Owned.Has]; omega⟩
    · have h1 := (hL.each (Owned.of sl new) (by simp)).1
      simp only [Owned.of] at h1
      exact ⟨Owned.of sl new, List.mem_cons_self, by simp only [Owned.Has, Owned.of]; omega⟩

/-- How thread `t` can write the byte at `x` in its next step, if that byte belongs to memory that is held. -/
theorem SInv.stores {s0 s cs K B} (hi : SInv s0 s cs K B) {t ch x} (h : Writes s (.go t ch) x) (hx : s.w.Holds x) :
    (Atomic s (.go t ch) x ∧ s.root ≠ 0 ∧ s.root ≤ x ∧ x < s.root + 8) ∨ (¬ Atomic s (.go t ch) x ∧ ∃ b ∈ B t, b.Has x) := by
  rcases (hi.access h.touches).2 with h1 | ⟨h1, h2, h3, h4⟩ | ⟨h1, h2, h3⟩ | h1
  · exact .inl h1
  · rcases hi.puts h.puts with ⟨_, _, h5, h6⟩ | ⟨_, h5⟩ | ⟨b, h5, h6, _⟩
    · omega
    · exact absurd hx h5
    · exact .inr ⟨h1, b, h5, h6⟩
  · exact absurd hx h2
  · exact .inr h1

theorem touches_call {s : SS} {t c x} : ¬ Touches s (.call t c) x := by
  rintro ⟨v, hv⟩
  apply hv
  by_cases h : s.pcs t = .idle
  · simp only [sstep]
    rw [if_pos h, if_pos (show (s.poke x v).pcs t = .idle from h)]
    rfl
  · simp only [sstep]
    rw [if_neg h, if_neg (show ¬ (s.poke x v).pcs t = .idle from h)]
    rfl

theorem touches_write {s : SS} {y v x} (h : Touches s (.write y v) x) : x = y := by
  obtain ⟨v', hv⟩ := h
  apply Classical.byContradiction
  intro hne
  apply hv
  show Except.ok (some (none, { s.poke x v' with w := { s.w.poke x v' with mem := setBytes (s.w.poke x v').mem y 1 (fun _ => v) } })) =
    Except.ok (some (none, _))
  rw [poke_setBytes s.w v' (fun _ => v) (x := x) (a := y) (n := 1) (by omega)]
  rfl

/-! ### The invariant -/

/-- The byte at `x` was accessed in event `e`. -/
def HB.Acc (h : HB) (x e : Nat) : Prop := h.reads x e ∨ h.writes x e ∨ h.atoms x e

/-- Events that happen before whatever a thread does that holds the lock. -/
def HB.Pub (h : HB) (s : SS) (e : Nat) : Prop :=
  e = h.epoch ∨ h.past h.epoch e ∨ h.lockW e ∨ ∃ t, s.writer = some t ∧ h.view t e

/-- Events are numbered, and views are closed under happens-before. -/
structure HB.WF (h : HB) : Prop where
  view : ∀ u e, h.view u e → e < h.clock
  lockR : ∀ e, h.lockR e → e < h.clock
  lockW : ∀ e, h.lockW e → e < h.clock
  since : ∀ x, h.since x < h.clock
  rets : ∀ e, h.rets e → e < h.clock
  epoch : h.epoch < h.clock
  mine : ∀ x e, h.mine x e → e < h.clock
  atoms : ∀ x e, h.atoms x e → e < h.clock
  plain : ∀ x e, h.mine x e → ¬ h.atoms x e
  viewC : ∀ u e e', h.view u e → h.past e e' → h.view u e'
  lockRC : ∀ e e', h.lockR e → h.past e e' → h.lockR e'
  lockWC : ∀ e e', h.lockW e → h.past e e' → h.lockW e'

theorem HB.WF.start (t0 : Nat) : (HB.start t0).WF where
  view := by rintro u e ⟨_, rfl⟩; exact Nat.one_pos
  lockR := fun _ h => h.elim
  lockW := fun _ h => h.elim
  since := fun _ => Nat.one_pos
  rets := fun _ h => h.elim
  epoch := Nat.one_pos
  mine := fun _ _ h => h.elim
  atoms := fun _ _ h => h.elim
  plain := fun _ _ h => h.elim
  viewC := fun _ _ _ _ h => h.elim
  lockRC := fun _ _ h => h.elim
  lockWC := fun _ _ h => h.elim

theorem HB.WF.before {h : HB} (w : h.WF) {s t a e} (hb : h.before s t a e) : e < h.clock := by
  rcases hb with hb | hb
  · exact w.view _ _ hb
  · unfold HB.acq at hb
    split at hb
    · split at hb
      · exact w.lockW _ hb
      · exact hb.elim (w.lockW _) (w.lockR _)
      · exact hb.elim
    · exact hb.elim

theorem HB.WF.beforeC {h : HB} (w : h.WF) {s t a e e'} (hb : h.before s t a e) (hp : h.past e e') : h.before s t a e' := by
  rcases hb with hb | hb
  · exact .inl (w.viewC _ _ _ hb hp)
  · right
    unfold HB.acq at hb ⊢
    split at hb
    · split at hb
      · exact w.lockWC _ _ hb hp
      · exact hb.imp (w.lockWC _ _ · hp) (w.lockRC _ _ · hp)
      · exact hb.elim
    · exact hb.elim

section
variable {h h' : HB} {s s' : SS} {K : Book} {t : Nat} {a : Act} {r : Option Resp}

theorem HB.Step.pastOld (hh : h.Step s K t a r s' h') {n e} (hn : n < h.clock) : h'.past n e ↔ h.past n e := by
  rw [hh.past, if_neg (by omega)]

theorem HB.Step.pastNew (hh : h.Step s K t a r s' h') {e} : h'.past h.clock e ↔ h.before s t a e := by
  rw [hh.past, if_pos rfl]

theorem HB.Step.mono (hh : h.Step s K t a r s' h') {u e} (hv : h.view u e) : h'.view u e := (hh.view u e).mpr (.inl hv)

theorem HB.Step.now (hh : h.Step s K t a r s' h') : h'.view t h.clock := (hh.view _ _).mpr (.inr ⟨rfl, .inr rfl⟩)

theorem HB.Step.seen (hh : h.Step s K t a r s' h') {e} (hb : h.before s t a e) : h'.view t e := (hh.view _ _).mpr (.inr ⟨rfl, .inl hb⟩)

theorem HB.Step.wf (hh : h.Step s K t a r s' h') (w : h.WF) : h'.WF := by
  have cl : ∀ {P : View}, (∀ e e', P e → h.past e e' → P e') → (∀ e, P e → e < h.clock) → ∀ {Q : Prop} {e e'},
      (P e ∨ Q ∧ (h.before s t a e ∨ e = h.clock)) → h'.past e e' → (P e' ∨ Q ∧ (h.before s t a e' ∨ e' = h.clock)) := by
    intro P hP hb Q e e' h1 h2
    rcases h1 with h1 | ⟨hq, h1 | rfl⟩
    · exact .inl (hP _ _ h1 ((hh.pastOld (hb _ h1)).mp h2))
    · exact .inr ⟨hq, .inl (w.beforeC h1 ((hh.pastOld (w.before h1)).mp h2))⟩
    · exact .inr ⟨hq, .inl (hh.pastNew.mp h2)⟩
  have bd : ∀ {P : View}, (∀ e, P e → e < h.clock) → ∀ {Q : Prop} {e},
      (P e ∨ Q ∧ (h.before s t a e ∨ e = h.clock)) → e < h'.clock := by
    intro P hb Q e h1
    rw [hh.clock]
    rcases h1 with h1 | ⟨_, h1 | rfl⟩
    · have := hb _ h1; omega
    · have := w.before h1; omega
    · omega
  refine ⟨?_, ?_, ?_, ?_, ?_, ?_, ?_, ?_, ?_, ?_, ?_, ?_⟩
  · exact fun u e he => bd (w.view u) ((hh.view _ _).mp he)
  · exact fun e he => bd w.lockR ((hh.lockR _).mp he)
  · exact fun e he => bd w.lockW ((hh.lockW _).mp he)
  · intro x
    rw [hh.clock]
    by_cases hg : Gives K r x a
    · rw [(hh.since x).1 hg]; omega
    · rw [(hh.since x).2 hg]; have := w.since x; omega
  · intro e he
    rw [hh.clock]
    rcases (hh.rets _).mp he with h1 | ⟨rfl, _⟩
    · have := w.rets _ h1; omega
    · omega
  · rw [hh.epoch, hh.clock]
    have := w.epoch
    split <;> omega
  · intro x e he
    rw [hh.clock]
    rcases (hh.mine x e).mp he with ⟨h1, _⟩ | ⟨rfl, _⟩
    · have := w.mine _ _ h1; omega
    · omega
  · intro x e he
    rw [hh.clock]
    rcases (hh.atoms x e).mp he with ⟨h1, _⟩ | ⟨rfl, _⟩
    · have := w.atoms _ _ h1; omega
    · omega
  · intro x e h1 h2
    rcases (hh.mine x e).mp h1 with ⟨h1, _⟩ | ⟨rfl, v, rfl⟩
    · rcases (hh.atoms x e).mp h2 with ⟨h2, _⟩ | ⟨rfl, _⟩
      · exact w.plain _ _ h1 h2
      · exact Nat.lt_irrefl _ (w.mine _ _ h1)
    · rcases (hh.atoms x _).mp h2 with ⟨h2, _⟩ | ⟨_, _, h2⟩
      · exact Nat.lt_irrefl _ (w.atoms _ _ h2)
      · exact h2
  · exact fun u e e' h1 h2 => (hh.view _ _).mpr (cl (w.viewC u) (w.view u) ((hh.view _ _).mp h1) h2)
  · exact fun e e' h1 h2 => (hh.lockR _).mpr (cl w.lockRC w.lockR ((hh.lockR _).mp h1) h2)
  · exact fun e e' h1 h2 => (hh.lockW _).mpr (cl w.lockWC w.lockW ((hh.lockW _).mp h1) h2)

end

theorem HB.WF.read {h : HB} (w : h.WF) (t x : Nat) : (h.read t x).WF := by
  have po : ∀ {n e}, n < h.clock → ((h.read t x).past n e ↔ h.past n e) := by
    intro n e hn
    show (if n = h.clock then h.view t e else h.past n e) ↔ _
    rw [if_neg (by omega)]
  refine ⟨?_, ?_, ?_, ?_, ?_, ?_, ?_, ?_, ?_, ?_, ?_, ?_⟩
  · intro u e he
    show e < h.clock + 1
    rcases he with he | ⟨_, rfl⟩
    · have := w.view _ _ he; omega
    · omega
  · exact fun e he => Nat.lt_succ_of_lt (w.lockR e he)
  · exact fun e he => Nat.lt_succ_of_lt (w.lockW e he)
  · exact fun x => Nat.lt_succ_of_lt (w.since x)
  · exact fun e he => Nat.lt_succ_of_lt (w.rets e he)
  · exact Nat.lt_succ_of_lt w.epoch
  · intro y e he
    show e < h.clock + 1
    rcases he with he | ⟨_, rfl⟩
    · have := w.mine _ _ he; omega
    · omega
  · exact fun y e he => Nat.lt_succ_of_lt (w.atoms y e he)
  · intro y e h1 h2
    rcases h1 with h1 | ⟨_, rfl⟩
    · exact w.plain _ _ h1 h2
    · exact Nat.lt_irrefl _ (w.atoms _ _ h2)
  · intro u e e' h1 h2
    rcases h1 with h1 | ⟨rfl, rfl⟩
    · exact .inl (w.viewC _ _ _ h1 ((po (w.view _ _ h1)).mp h2))
    · left
      have : (if h.clock = h.clock then h.view u e' else h.past h.clock e') := h2
      rwa [if_pos rfl] at this
  · exact fun e e' h1 h2 => w.lockRC _ _ h1 ((po (w.lockR _ h1)).mp h2)
  · exact fun e e' h1 h2 => w.lockWC _ _ h1 ((po (w.lockW _ h1)).mp h2)

theorem HB.WF.sync {h : HB} (w : h.WF) (t u : Nat) : (h.sync t u).WF := by
  refine ⟨?_, w.lockR, w.lockW, w.since, w.rets, w.epoch, w.mine, w.atoms, w.plain, ?_, w.lockRC, w.lockWC⟩
  · intro v e he
    rcases he with he | ⟨_, he⟩
    · exact w.view _ _ he
    · exact w.view _ _ he
  · intro v e e' h1 h2
    rcases h1 with h1 | ⟨rfl, h1⟩
    · exact .inl (w.viewC _ _ _ h1 h2)
    · exact .inr ⟨rfl, w.viewC _ _ _ h1 h2⟩

/-- What threads inside calls, and those holding the lock, have seen. -/
structure HB.LockInv (h : HB) (s : SS) (K : Book) : Prop where
  busy : ∀ u, K.busy u ≠ none → h.view u h.epoch
  rd : ∀ u ∈ s.readers, ∀ e, h.lockW e → h.view u e
  wr : ∀ u, s.writer = some u → ∀ e, h.lockW e ∨ h.lockR e → h.view u e

/-- A thread that holds the lock has seen everything that is public. -/
theorem HB.LockInv.pub {h : HB} {s0 s cs K B} (hl : h.LockInv s K) (w : h.WF) (hi : SInv s0 s cs K B) {t : Nat}
    (ht : (s.pcs t).holdsR = true ∨ (s.pcs t).holdsW = true) {e} (he : h.Pub s e) : h.view t e := by
  have hb : K.busy t ≠ none := by
    intro hn
    rw [(hi.busy_none hn).1] at ht
    rcases ht with ht | ht <;> cases ht
  rcases he with rfl | he | he | ⟨u, hu, he⟩
  · exact hl.busy t hb
  · exact w.viewC _ _ _ (hl.busy t hb) he
  · rcases ht with ht | ht
    · exact hl.rd t ((hi.lock.rd t).mpr ht) e he
    · exact hl.wr t ((hi.lock.wr t).mpr ht) e (.inl he)
  · rcases ht with ht | ht
    · have := hi.lock.alone ((hi.lock.wr u).mp hu) t
      rw [ht] at this; cases this
    · have := (hi.lock.wr t).mpr ht
      rw [hu] at this
      injection this with this
      subst this
      exact he

/-- What a step of `t` does to the lock. -/
structure GoLock (s s' : SS) (t : Nat) (a : Act) : Prop where
  rd : ∀ u ∈ s'.readers, u ∈ s.readers ∨ u = t ∧ ∃ c ch, a = .go t ch ∧ s.pcs t = .rd c
  wr : ∀ u, s'.writer = some u → s.writer = some u ∨ u = t ∧ ∃ j ch, a = .go t ch ∧ s.pcs t = .wr j
  keep : ∀ u, s.writer = some u → s'.writer = some u ∨ u = t ∧ LeavesW s a
  outR : LeavesR s a → s'.writer = none
  outW : LeavesW s a → s'.readers = [] ∧ s'.writer = none

theorem GoLock.of_same {s s' : SS} {t a} (h1 : s'.readers = s.readers) (h2 : s'.writer = s.writer) (h3 : ∀ u ch, a ≠ .go u ch) :
    GoLock s s' t a := by
  refine ⟨fun u hu => .inl (h1 ▸ hu), fun u hu => .inl (h2 ▸ hu), fun u hu => .inl (h2.trans hu), ?_, ?_⟩
  · intro h; cases a <;> first | exact h.elim | exact absurd rfl (h3 _ _)
  · intro h; cases a <;> first | exact h.elim | exact absurd rfl (h3 _ _)

theorem SInv.goLock {s0 s cs K B} (hi : SInv s0 s cs K B) {t ch r s'} (hgo : goStep s t ch = .ok (some (r, s'))) :
    GoLock s s' t (.go t ch) := by
  have hRn : (s.pcs t).holdsR = true → s.writer = none := by
    intro h
    apply Classical.byContradiction
    intro hn
    have := hi.lock.excl hn
    have h2 := (hi.lock.rd t).mpr h
    rw [this] at h2; cases h2
  have hLR : LeavesR s (.go t ch) = (match s.pcs t with
    | .unlockSlow _ | .ret false _ => True
    | _ => False) := rfl
  have hLW : LeavesW s (.go t ch) = (match s.pcs t with
    | .ret true _ => True
    | _ => False) := rfl
  have keep : ∀ {s1 : SS} {pc pc' : Pc}, s.pcs t = pc → s1.readers = s.readers → s1.writer = s.writer →
      (match pc with | .unlockSlow _ | .ret .. => False | _ => True) → GoLock s (s1.setPc t pc') t (.go t ch) := by
    intro s1 pc pc' hpc h1 h2 h3
    refine ⟨fun u hu => .inl (h1 ▸ hu), fun u hu => .inl (h2 ▸ hu), fun u hu => .inl (h2.trans hu), ?_, ?_⟩
    · rw [hLR, hpc]; intro h; cases pc <;> first | exact h.elim | exact h3.elim
    · rw [hLW, hpc]; intro h; cases pc <;> first | exact h.elim | exact h3.elim
  cases hi.go_res hgo with
  | @acq c hpc hw =>
    refine ⟨?_, fun u hu => .inl hu, fun u hu => .inl hu, ?_, ?_⟩
    · intro u hu
      rcases List.mem_cons.mp hu with rfl | hu
      · exact .inr ⟨rfl, c, ch, rfl, hpc⟩
      · exact .inl hu
    · rw [hLR, hpc]; exact fun h => h.elim
    · rw [hLW, hpc]; exact fun h => h.elim
  | load hpc | noroom hpc | commit hpc | retry hpc | rtip hpc | rnot hpc | rnoroom hpc | rcommit hpc | rfail hpc | free hpc
  | slowErr hpc | slowOk hpc | copy hpc | copied hpc => exact keep hpc rfl rfl trivial
  | @unlock j hpc =>
    have := hRn (by rw [hpc]; rfl)
    refine ⟨fun u hu => .inl (List.mem_of_mem_erase hu), fun u hu => .inl hu, fun u hu => .inl hu, fun _ => this, ?_⟩
    rw [hLW, hpc]; exact fun h => h.elim
  | @wr j hpc hw hrd =>
    refine ⟨fun u hu => .inl hu, ?_, fun u hu => by (rw [hw] at hu; cases hu), ?_, ?_⟩
    · intro u hu
      injection hu with hu
      exact .inr ⟨hu.symm, j, ch, rfl, hpc⟩
    · rw [hLR, hpc]; exact fun h => h.elim
    · rw [hLW, hpc]; exact fun h => h.elim
  | retW hpc =>
    have hwt := (hi.lock.wr t).mpr (by rw [hpc]; rfl)
    have hrn := hi.lock.excl (by rw [hwt]; simp)
    refine ⟨fun u hu => .inl hu, fun u hu => (by cases hu), ?_, ?_, fun _ => ⟨hrn, rfl⟩⟩
    · intro u hu
      rw [hwt] at hu
      injection hu with hu
      exact .inr ⟨hu.symm, by rw [hLW, hpc]; trivial⟩
    · rw [hLR, hpc]; exact fun h => h.elim
  | retR hpc =>
    have := hRn (by rw [hpc]; rfl)
    refine ⟨fun u hu => .inl (List.mem_of_mem_erase hu), fun u hu => .inl hu, fun u hu => .inl hu, fun _ => this, ?_⟩
    rw [hLW, hpc]; exact fun h => h.elim

theorem HB.LockInv.step {h h' : HB} {s s' : SS} {K K' KG : Book} {t : Nat} {a : Act} {r : Option Resp} (hl : h.LockInv s K)
    (hh : h.Step s KG t a r s' h') (g : GoLock s s' t a) (hb : ∀ u, K'.busy u ≠ none → K.busy u ≠ none ∨ u = t ∧ h.view t h.epoch)
    (he : a.resets = true → ∀ u, K'.busy u = none) : h'.LockInv s' K' := by
  refine ⟨?_, ?_, ?_⟩
  · intro u hu
    have hr : a.resets = false := by
      cases hr : a.resets with
      | false => rfl
      | true => exact absurd (he hr u) hu
    rw [hh.epoch, hr]
    rcases hb u hu with h1 | ⟨rfl, h1⟩
    · exact hh.mono (hl.busy u h1)
    · exact hh.mono h1
  · intro u hu e hw
    rcases (hh.lockW e).mp hw with hw | ⟨hw, _⟩
    · rcases g.rd u hu with h1 | ⟨rfl, c, ch, rfl, h1⟩
      · exact hh.mono (hl.rd u h1 e hw)
      · exact hh.seen (.inr (by show (match s.pcs u with | .rd _ => h.lockW e | .wr _ => h.lockW e ∨ h.lockR e | _ => False); rw [h1]; exact hw))
    · rw [(g.outW hw).1] at hu; cases hu
  · intro u hu e hw
    have key : h.lockW e ∨ h.lockR e := by
      rcases hw with hw | hw
      · rcases (hh.lockW e).mp hw with hw | ⟨hw, _⟩
        · exact .inl hw
        · rw [(g.outW hw).2] at hu; cases hu
      · rcases (hh.lockR e).mp hw with hw | ⟨hw, _⟩
        · exact .inr hw
        · rw [g.outR hw] at hu; cases hu
    rcases g.wr u hu with h1 | ⟨rfl, j, ch, rfl, h1⟩
    · exact hh.mono (hl.wr u h1 e key)
    · exact hh.seen (.inr (by show (match s.pcs u with | .rd _ => h.lockW e | .wr _ => h.lockW e ∨ h.lockR e | _ => False); rw [h1]; exact key))

/-- What is public stays public. -/
theorem HB.Step.pub {h h' : HB} {s s' : SS} {K : Book} {t : Nat} {a : Act} {r : Option Resp} (hh : h.Step s K t a r s' h')
    (w : h.WF) (g : GoLock s s' t a) (ha : a.resets = false) {e} (he : h.Pub s e) : h'.Pub s' e := by
  have hep : h'.epoch = h.epoch := by rw [hh.epoch, ha]; rfl
  rcases he with rfl | he | he | ⟨u, hu, he⟩
  · exact .inl hep.symm
  · exact .inr (.inl (by rw [hep]; exact (hh.pastOld w.epoch).mpr he))
  · exact .inr (.inr (.inl ((hh.lockW e).mpr (.inl he))))
  · rcases g.keep u hu with h1 | ⟨rfl, h1⟩
    · exact .inr (.inr (.inr ⟨u, h1, hh.mono he⟩))
    · exact .inr (.inr (.inl ((hh.lockW e).mpr (.inr ⟨h1, .inl (.inl he)⟩))))

/-- Where the accesses of the allocator's bytes stand, and those of the blocks it has in hand. -/
structure HB.MemCore (h : HB) (s : SS) (B : Nat → List Owned) : Prop where
  room : ∀ x e, s.InRoom x → h.Acc x e → h.Pub s e
  hdrW : ∀ Bk ∈ openBlocks s.w.log, ∀ x e, Bk.addr ≤ x → x < Bk.addr + 32 → h.writes x e → h.Pub s e
  hdrR : ∀ Bk, (openBlocks s.w.log).head? = some Bk → ∀ x e, Bk.addr ≤ x → x < Bk.addr + 8 → h.reads x e → h.Pub s e
  hdrA : ∀ Bk ∈ openBlocks s.w.log, ∀ x e, Bk.addr ≤ x → x < Bk.addr + 32 → h.atoms x e → h.Pub s e ∨ x < Bk.addr + 8
  blk : ∀ t, ∀ b ∈ B t, ∀ x e, b.Has x → h.Acc x e → h.view t e

/-- Where the accesses of each byte stand. -/
structure HB.MemInv (h : HB) (s : SS) (K : Book) (B : Nat → List Owned) : Prop extends h.MemCore s B where
  own : ∀ b ∈ K.owned, ∀ x e, b.Has x → h.Acc x e → e = h.since x ∨ h.past (h.since x) e ∨ (h.mine x e ∧ h.since x < e)
  all : ∀ x e, h.Acc x e → h.mine x e ∨ (∃ n, h.rets n ∧ (e = n ∨ h.past n e)) ∨ e = h.epoch ∨ h.past h.epoch e ∨
    ∃ u, K.busy u ≠ none ∧ h.view u e

/-- The invariant. -/
structure HInv (s0 : SS) (s : SS) (K : Book) (h : HB) : Prop where
  wf : h.WF
  lock : h.LockInv s K
  inv : ∃ cs B, SInv s0 s cs K B ∧ h.MemInv s K B

end Blink
