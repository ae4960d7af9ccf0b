import Verif.Proofs.SyncCas
/-
  Threads using a `SyncBlinkAlloc` whose only chunk has room for everything they ask for: the space each of them may still take
  is accounted for.
-/
namespace Blink

/-- Space a thread may still take from the current chunk. -/
def Pc.due : Pc → Nat
  | .rd (.allocate l) => l.size + l.align - 1
  | .rd (.resize _ _ new) => new.size + new.align - 1
  | .load _ j => j.layout.size + j.layout.align - 1
  | .cas _ j _ => j.layout.size + j.layout.align - 1
  | .rload _ _ _ new => new.size + new.align - 1
  | .rcas _ _ _ new _ => new.size + new.align - 1
  | _ => 0

/-- Not on the way to the underlying allocator, nor coming back from there, nor failing. -/
def Pc.calm : Pc → Bool
  | .unlockSlow _ | .wr _ | .slow _ | .copy true .. | .ret true _ | .ret false .err => false
  | _ => true

/-- The accounts, since the state `s1`, when calls of total cost `n` were made. -/
structure WarmAt (s1 s : SS) (n : Nat) : Prop where
  calls : s.w.calls = s1.w.calls
  log   : s.w.log = s1.w.log
  held  : s.w.held = s1.w.held
  root  : s.root = s1.root
  calm  : ∀ t, (s.pcs t).calm = true
  due   : ∃ cur, s.cursor = some cur ∧ ∀ T : List Nat, T.Nodup → cur + (T.map fun t => (s.pcs t).due).sum ≤ s1.root + 32 + n

theorem sum_congr_of {f g : Nat → Nat} {T : List Nat} (h : ∀ u ∈ T, f u = g u) : (T.map f).sum = (T.map g).sum := by
  rw [List.map_congr_left h]

/-- One thread moves. -/
theorem WarmAt.next {s1 s s' n d t cur cur'} (h : WarmAt s1 s n) (hcur : s.cursor = some cur) (h1 : s'.w.calls = s.w.calls)
    (h2 : s'.w.log = s.w.log) (h3 : s'.w.held = s.w.held) (h4 : s'.root = s.root) (ho : ∀ u, u ≠ t → s'.pcs u = s.pcs u)
    (hc : (s'.pcs t).calm = true) (hcur' : s'.cursor = some cur')
    (hle : cur' + (s'.pcs t).due ≤ cur + (s.pcs t).due + d) (hle' : cur' ≤ cur + (s.pcs t).due + d) : WarmAt s1 s' (n + d) where
  calls := h1.trans h.calls
  log := h2.trans h.log
  held := h3.trans h.held
  root := h4.trans h.root
  calm := by
    intro u
    by_cases hu : u = t
    · rw [hu]; exact hc
    · rw [ho u hu]; exact h.calm u
  due := by
    obtain ⟨c, hc1, hc2⟩ := h.due
    rw [hcur] at hc1
    injection hc1 with hc1
    subst hc1
    refine ⟨cur', hcur', fun T hT => ?_⟩
    by_cases hm : t ∈ T
    · have hp := List.perm_cons_erase hm
      have e1 := (hp.map fun u => (s'.pcs u).due).sum_nat
      have e2 := (hp.map fun u => (s.pcs u).due).sum_nat
      have e3 : ((T.erase t).map fun u => (s'.pcs u).due).sum = ((T.erase t).map fun u => (s.pcs u).due).sum := by
        apply sum_congr_of
        intro u hu
        rw [ho u ((hT.mem_erase_iff.mp hu).1)]
      have := hc2 T hT
      simp only [List.map_cons, List.sum_cons] at e1 e2
      omega
    · have e3 : (T.map fun u => (s'.pcs u).due).sum = (T.map fun u => (s.pcs u).due).sum := by
        apply sum_congr_of
        intro u hu
        rw [ho u (by rintro rfl; exact hm hu)]
      have := hc2 (t :: T) (List.nodup_cons.mpr ⟨hm, hT⟩)
      simp only [List.map_cons, List.sum_cons] at this
      omega

/-- What one thread may take, all others aside. -/
theorem WarmAt.one {s1 s n} (h : WarmAt s1 s n) {cur} (hcur : s.cursor = some cur) (t : Nat) :
    cur + (s.pcs t).due ≤ s1.root + 32 + n := by
  obtain ⟨c, hc1, hc2⟩ := h.due
  rw [hcur] at hc1
  injection hc1 with hc1
  subst hc1
  have := hc2 [t] (by simp)
  simpa using this

theorem Job.got_calm (b : Slice) (j : Job) : (j.got false b).calm = true ∧ (j.got false b).due = 0 := by
  cases j <;> exact ⟨rfl, rfl⟩

theorem enter_calm {root : Nat} (h : root ≠ 0) (c : Call) : (enter root c).calm = true ∧ (enter root c).due ≤ (Pc.rd c).due := by
  unfold enter
  cases c <;> simp only [if_neg h]
  · exact ⟨rfl, Nat.le_refl _⟩
  · split
    · split
      · exact ⟨rfl, Nat.zero_le _⟩
      · exact ⟨rfl, Nat.le_refl _⟩
    · exact ⟨rfl, Nat.le_refl _⟩
  · exact ⟨rfl, Nat.le_refl _⟩

/-- A thread inside a call moves: the accounts stay in order, and it does not come back with a failure. -/
theorem WarmAt.go {s0 s1 s c K B n t ch r s'} (h : WarmAt s1 s n) (hI : SInv s0 s [c] K B) (hrd : s.readOK')
    (hroom : s1.root + 32 + n ≤ c.end_) (hg : GoRes s [c] t ch r s') : WarmAt s1 s' n ∧ r ≠ some .err := by
  have hcur := hI.cursor_eq (c := c) rfl
  have hroot : s.root = c.start := hI.root
  have hok := hI.arena.ok c List.mem_cons_self
  have hpos := hok.pos
  have hlo := hok.lo
  have he := hI.arena.chunk_rng (c := c) List.mem_cons_self
  have hone := h.one hcur t
  have hcalm := h.calm t
  have ho : ∀ u, u ≠ t → s'.pcs u = s.pcs u := fun u hu => hg.others hu
  have ht := hI.thr t
  obtain ⟨bz, hbz⟩ : ∃ bz, K.busy t = bz := ⟨_, rfl⟩
  obtain ⟨Bt, hB⟩ : ∃ Bt, B t = Bt := ⟨_, rfl⟩
  rw [hbz, hB] at ht
  have hval : ∀ {j : Job} {v : Nat}, s.pcs t = .cas s.root j v → j.layout.Valid := by
    intro j v hj
    rw [hj] at ht; cases ht; exact JobOK.valid ‹_›
  -- steps that leave memory alone
  have quiet : ∀ {pc : Pc}, s'.w = s.w → s'.root = s.root → s'.pcs t = pc → pc.calm = true → pc.due ≤ (s.pcs t).due →
      WarmAt s1 s' n := by
    intro pc e1 e2 e3 e4 e5
    have hc' : s'.cursor = some c.cursor := by
      rw [← hcur]; unfold SS.cursor; rw [e1, e2]
    exact h.next (d := 0) hcur (by rw [e1]) (by rw [e1]) (by rw [e1]) e2 ho (by rw [e3]; exact e4) hc' (by rw [e3]; omega) (by omega)
  cases hg with
  | @acq cl hpc hw =>
    have hne : s.root ≠ 0 := by omega
    exact ⟨quiet rfl rfl (SS.setPc_same _ _ _) (enter_calm hne cl).1 (by rw [hpc]; exact (enter_calm hne cl).2), by simp⟩
  | load hpc hcs hr => exact ⟨quiet rfl rfl (SS.setPc_same _ _ _) rfl (by rw [hpc]; exact Nat.le_refl _), by simp⟩
  | @noroom c1 tl j v hpc hcs hr hb =>
    exfalso
    injection hcs with h1 h2
    subst h1
    obtain ⟨cur, q1, q2⟩ := hrd t v (by rw [hpc]; rfl)
    rw [hcur] at q1
    injection q1 with q1
    rw [hpc] at hone
    simp only [Pc.due] at hone
    obtain ⟨a, ha, _⟩ := bump_of_cost (hval hpc) (pos := v) (e := c.end_) (by omega) he
    rw [hb] at ha
    cases ha
  | @commit c1 tl j a hpc hcs hr hb hsp =>
    injection hcs with h1 h2
    subst h1
    refine ⟨?_, by simp⟩
    have hf := bump_facts (hval hpc) hb
    obtain ⟨k, _, hk, hap, _⟩ := (hval hpc).facts
    have hA := hI.arena.setCursor (n := a + j.layout.size) (by omega) (by omega)
    have hg := j.got_calm ⟨a, j.layout.size⟩
    refine h.next (d := 0) (cur' := a + j.layout.size) hcur rfl rfl rfl rfl ho (by rw [SS.setPc_same]; exact hg.1) ?_
      (by rw [SS.setPc_same, hg.2, hpc]; simp only [Pc.due]; omega) (by rw [hpc]; simp only [Pc.due]; omega)
    show decodeWord (setCursor s.w c (a + j.layout.size)).mem s.root = _
    rw [hr]
    exact decodeWord_of hA.rep.1.1
  | retry hpc hcs hr hb hf => exact ⟨quiet rfl rfl (SS.setPc_same _ _ _) rfl (by rw [hpc]; exact Nat.le_refl _), by simp⟩
  | rtip hpc hcs hr hv => exact ⟨quiet rfl rfl (SS.setPc_same _ _ _) rfl (by rw [hpc]; exact Nat.le_refl _), by simp⟩
  | rnot hpc hcs hr hv => exact ⟨quiet rfl rfl (SS.setPc_same _ _ _) rfl (by rw [hpc]; exact Nat.le_refl _), by simp⟩
  | @rnoroom c1 tl p old new hpc hcs hr hb =>
    exfalso
    injection hcs with h1 h2
    subst h1
    obtain ⟨cur, q1, q2⟩ := hrd t (p + old.size) (by rw [hpc]; rfl)
    rw [hcur] at q1
    injection q1 with q1
    rw [hpc] at hone ht
    simp only [Pc.due] at hone
    have hv : new.Valid := by
      cases ht with
      | rcas _ hj => exact hj.valid
    obtain ⟨k, _, hk, hap, _⟩ := hv.facts
    omega
  | @rcommit c1 tl p old new hpc hcs hr hb hv =>
    injection hcs with h1 h2
    subst h1
    refine ⟨?_, by simp⟩
    rw [hpc] at ht
    cases ht with
    | rcas hr0 hj ha hs =>
      obtain ⟨k, _, hk, hap, _⟩ := (hj.valid).facts
      simp only [Job.layout] at hap
      have hA := hI.arena.setCursor (n := p + new.size) (by omega) (by omega)
      refine h.next (d := 0) (cur' := p + new.size) hcur rfl rfl rfl rfl ho (by rw [SS.setPc_same]; rfl) ?_
        (by rw [SS.setPc_same, hpc]; simp only [Pc.due]; omega) (by rw [hpc]; simp only [Pc.due]; omega)
      show decodeWord (setCursor s.w c (p + new.size)).mem s.root = _
      rw [hr]
      exact decodeWord_of hA.rep.1.1
  | rfail hpc hcs hr hb hv => exact ⟨quiet rfl rfl (SS.setPc_same _ _ _) rfl (by rw [hpc]; exact Nat.le_refl _), by simp⟩
  | free hpc => exact ⟨quiet rfl rfl (SS.setPc_same _ _ _) rfl (Nat.zero_le _), by simp⟩
  | unlock hpc => rw [hpc] at hcalm; cases hcalm
  | wr hpc => rw [hpc] at hcalm; cases hcalm
  | slowErr hpc => rw [hpc] at hcalm; cases hcalm
  | slowOk hpc => rw [hpc] at hcalm; cases hcalm
  | @copy wr p old new b k hpc hk hu1 hu2 =>
    refine ⟨?_, by simp⟩
    have hA := hI.arena.setUsed (f := fun _ => s.w.mem (p + k)) (.inr hu2)
    have hw : wr = false := by
      cases wr with
      | false => rfl
      | true => rw [hpc] at hcalm; cases hcalm
    subst hw
    refine h.next (d := 0) (cur' := c.cursor) hcur rfl rfl rfl rfl ho (by rw [SS.setPc_same]; rfl) ?_
      (by rw [SS.setPc_same]; simp only [Pc.due]; omega) (by omega)
    show decodeWord _ s.root = _
    rw [hroot]
    exact decodeWord_of hA.rep.1.1
  | @copied wr p old new b k hpc hk =>
    have hw : wr = false := by
      cases wr with
      | false => rfl
      | true => rw [hpc] at hcalm; cases hcalm
    subst hw
    exact ⟨quiet rfl rfl (SS.setPc_same _ _ _) rfl (Nat.zero_le _), by simp⟩
  | retW hpc => rw [hpc] at hcalm; cases hcalm
  | @retR r hpc =>
    refine ⟨quiet rfl rfl (SS.setPc_same _ _ _) rfl (Nat.zero_le _), ?_⟩
    rintro h
    injection h with h
    subst h
    rw [hpc] at hcalm; cases hcalm

end Blink
