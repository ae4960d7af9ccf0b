import Verif.Proofs.SyncExact
import Verif.Spec.SyncExec
/-
  Consequences of `GoRes`: who may change what, a measure for undisturbed runs of one thread, uniqueness of the ghost chunk list.
-/
namespace Blink

theorem cs_unique {m : Nat → Byte} {log : List BaseEvent} {cs cs' : List Chunk} (h1 : LogInv log cs) (h2 : LogInv log cs')
    (r1 : Rep m cs) (r2 : Rep m cs') (o1 : ∀ c ∈ cs, ChunkOK c) (o2 : ∀ c ∈ cs', ChunkOK c) : cs = cs' := by
  have hb : cs.map Chunk.blk = cs'.map Chunk.blk := h1.1.symm.trans h2.1
  clear h1 h2
  induction cs generalizing cs' with
  | nil =>
    cases cs' with
    | nil => rfl
    | cons d t => cases hb
  | cons c t ih =>
    cases cs' with
    | nil => cases hb
    | cons d t' =>
      simp only [List.map_cons, List.cons.injEq] at hb
      have htl := ih r1.2 r2.2 (fun x hx => o1 x (List.mem_cons_of_mem _ hx)) (fun x hx => o2 x (List.mem_cons_of_mem _ hx)) hb.2
      subst htl
      obtain ⟨hb, -⟩ := hb
      simp only [Chunk.blk, BaseBlk.mk.injEq, Layout.mk.injEq] at hb
      obtain ⟨⟨a1, -, -, a4⟩, -⟩ := r1
      obtain ⟨⟨b1, -, -, b4⟩, -⟩ := r2
      have c1 := o1 c List.mem_cons_self
      have c2 := o2 d List.mem_cons_self
      have := c1.lo; have := c1.hi; have := c2.lo; have := c2.hi
      have e1 : c.cursor = d.cursor := by
        have x1 := decodeWord_of a1
        have x2 := decodeWord_of b1
        rw [hb.1, x2] at x1
        injection x1 with x1
        exact x1.symm
      have e2 : c.cum = d.cum := by
        have x1 := decodeWord_of a4
        have x2 := decodeWord_of b4
        rw [hb.1, x2] at x1
        injection x1 with x1
        exact x1.symm
      have e3 : c = d := by
        have h3 : c.end_ = d.end_ := by omega
        have h4 : c.start = d.start := hb.1
        have h5 : c.req = d.req := by omega
        cases c; cases d
        simp only at h3 h4 h5 e1 e2
        subst h3 h4 h5 e1 e2
        rfl
      rw [e3]

theorem SInv.unique {s0 s s' cs cs' K K' B B'} (h : SInv s0 s cs K B) (h' : SInv s0 s' cs' K' B') (hw : s'.w = s.w) : cs' = cs := by
  refine cs_unique (m := s.w.mem) (log := s.w.log) (hw ▸ h'.log) h.log (hw ▸ h'.arena.rep) h.arena.rep h'.arena.ok h.arena.ok

/-- The invariant after a step that does not end the call. -/
theorem SInv.next {s0 s cs K B} (h : SInv s0 s cs K B) {t : Nat} {ch : Choice} {s' : SS}
    (hgo : goStep s t ch = .ok (some (none, s'))) : ∃ cs' B', SInv s0 s' cs' K B' := by
  rcases h.go t ch with ⟨_, _, he⟩ | he | ⟨r, s1, cs1, he, _, hK⟩
  · rw [hgo] at he; cases he
  · rw [hgo] at he; cases he
  · rw [hgo] at he
    injection he with he; injection he with he; injection he with h1 h2
    subst h1 h2
    obtain ⟨B', hB⟩ := hK K .inside
    exact ⟨_, _, hB⟩

/-- The invariant after a step that ends the call. -/
theorem SInv.done {s0 s cs K B} (h : SInv s0 s cs K B) {t : Nat} {ch : Choice} {s' : SS} {r : Resp}
    (hgo : goStep s t ch = .ok (some (some r, s'))) :
    ∃ c ob cs' B', K.busy t = some (c, ob) ∧ SAfter s.w.mem K (.go t ch) (some r)
      { K with owned := gets c ob r ++ K.owned, busy := put K.busy t none } ∧
      SInv s0 s' cs' { K with owned := gets c ob r ++ K.owned, busy := put K.busy t none } B' := by
  obtain ⟨c, ob, hb⟩ : ∃ c ob, K.busy t = some (c, ob) := by
    cases hb : K.busy t with
    | some x => exact ⟨x.1, x.2, rfl⟩
    | none =>
      have := (h.busy_none hb).1
      unfold goStep at hgo
      rw [this] at hgo
      cases hgo
  rcases h.go t ch with ⟨_, _, he⟩ | he | ⟨r, s1, cs1, he, _, hK⟩
  · rw [hgo] at he; cases he
  · rw [hgo] at he; cases he
  · rw [hgo] at he
    injection he with he; injection he with he; injection he with h1 h2
    subst h1 h2
    have ha : SAfter s.w.mem K (.go t ch) (some r) { K with owned := gets c ob r ++ K.owned, busy := put K.busy t none } := .ret hb
    obtain ⟨B', hB⟩ := hK _ ha
    exact ⟨c, ob, cs1, B', hb, ha, hB⟩

/-- Only the stepping thread moves. -/
theorem GoRes.others {s cs t ch r s'} (h : GoRes s cs t ch r s') {u : Nat} (hu : u ≠ t) : s'.pcs u = s.pcs u := by
  cases h <;> exact SS.setPc_ne _ _ hu

/-- The call ends exactly when the thread leaves. -/
theorem GoRes.idle {s cs t ch r s'} (h : GoRes s cs t ch r s') : r.isSome = true ↔ s'.pcs t = .idle := by
  cases h <;> rw [SS.setPc_same] <;> simp
  case acq c _ _ =>
    unfold enter
    cases c <;> dsimp only <;> (repeat' split) <;> simp
  case commit j _ _ _ _ _ _ => cases j <;> simp [Job.got]
  case slowOk j _ _ _ _ _ => cases j <;> simp [Job.got]

/-- Bytes to be copied by a job. -/
def Job.bytes : Job → Nat
  | .alloc _ => 0
  | .resize _ old new => min new.size old.size

theorem SInv.cursor_eq {s0 s cs K B c tl} (h : SInv s0 s cs K B) (hcs : cs = c :: tl) : s.cursor = some c.cursor := by
  subst hcs
  unfold SS.cursor
  rw [show s.root = c.start from h.root]
  exact decodeWord_of h.arena.rep.1.1

/-- An upper bound for the number of undisturbed steps a thread still needs. -/
def SS.left (s : SS) : Pc → Nat
  | .idle => 0
  | .ret .. => 1
  | .copy _ _ old new _ k => min new.size old.size - k + 2
  | .slow j => j.bytes + 3
  | .wr j => j.bytes + 4
  | .unlockSlow j => j.bytes + 5
  | .cas _ j v => if s.cursor = some v then j.bytes + 6 else j.bytes + 7
  | .load _ j => j.bytes + 7
  | .rcas _ _ old new _ => min new.size old.size + 8
  | .rload _ _ old new => min new.size old.size + 9
  | .free .. => 2
  | .rd c => c.bytes + 10

theorem left_got (s : SS) (j : Job) (wr : Bool) (b : Slice) : s.left (j.got wr b) ≤ j.bytes + 2 := by
  cases j <;> simp [Job.got, SS.left, Job.bytes]

theorem SInv.left_lt {s0 s cs K B} (h : SInv s0 s cs K B) {t : Nat} {r s'} (hg : GoRes s cs t fresh r s') :
    s'.left (s'.pcs t) < s.left (s.pcs t) := by
  cases hg with
  | @acq c hpc hw =>
    rw [hpc, SS.setPc_same]
    unfold enter
    cases c <;> dsimp only <;> (repeat' split) <;> simp only [SS.left, Job.bytes, Call.bytes] <;> omega
  | @load c tl j hpc hcs hr =>
    rw [hpc, SS.setPc_same]
    have := h.cursor_eq hcs
    simp only [SS.left, fresh, List.getD_cons_zero]
    rw [if_pos (show (s.setPc t _).cursor = _ from this)]
    omega
  | noroom hpc hcs hr hb =>
    rw [hpc, SS.setPc_same]
    simp only [SS.left]
    split <;> omega
  | @commit c tl j a hpc hcs hr hb hsp =>
    rw [hpc, SS.setPc_same]
    refine Nat.lt_of_le_of_lt (left_got _ j false ⟨a, j.layout.size⟩) ?_
    show _ < (if s.cursor = some c.cursor then j.bytes + 6 else j.bytes + 7)
    split <;> omega
  | @retry c tl j v a hpc hcs hr hb hf =>
    rw [hpc, SS.setPc_same]
    have hcur := h.cursor_eq hcs
    have hne : c.cursor ≠ v := fun he => hf ⟨he, rfl⟩
    simp only [SS.left, fresh, List.getD_cons_zero]
    rw [if_pos (show (s.setPc t _).cursor = _ from hcur), if_neg (by rw [hcur]; simpa using hne)]
    omega
  | rtip hpc => rw [hpc, SS.setPc_same]; simp only [SS.left]; omega
  | rnot hpc => rw [hpc, SS.setPc_same]; simp only [SS.left, Job.bytes]; omega
  | rnoroom hpc => rw [hpc, SS.setPc_same]; simp only [SS.left, Job.bytes]; omega
  | rcommit hpc => rw [hpc, SS.setPc_same]; simp only [SS.left]; omega
  | rfail hpc => rw [hpc, SS.setPc_same]; simp only [SS.left, Job.bytes]; omega
  | free hpc => rw [hpc, SS.setPc_same]; simp only [SS.left]; omega
  | unlock hpc => rw [hpc, SS.setPc_same]; simp only [SS.left]; omega
  | wr hpc => rw [hpc, SS.setPc_same]; simp only [SS.left]; omega
  | slowErr hpc => rw [hpc, SS.setPc_same]; simp only [SS.left]; omega
  | @slowOk j b w' cs' hpc he =>
    rw [hpc, SS.setPc_same]
    refine Nat.lt_of_le_of_lt (left_got _ j true b) ?_
    show _ < j.bytes + 3
    omega
  | copy hpc hk => rw [hpc, SS.setPc_same]; simp only [SS.left]; omega
  | copied hpc hk => rw [hpc, SS.setPc_same]; simp only [SS.left]; omega
  | retW hpc => rw [hpc, SS.setPc_same]; simp only [SS.left]; omega
  | retR hpc => rw [hpc, SS.setPc_same]; simp only [SS.left]; omega

theorem GoRes.free' {s cs t ch r s'} (h : GoRes s cs t ch r s') (hf : s.Free t) : s'.Free t := by
  obtain ⟨h1, h2⟩ := hf
  have he : ∀ u ∈ s.readers.erase t, u = t := fun u hu => h1 u (List.mem_of_mem_erase hu)
  cases h with
  | acq => exact ⟨fun u hu => (List.mem_cons.mp hu).elim id (h1 u), h2⟩
  | unlock => exact ⟨he, h2⟩
  | wr => exact ⟨h1, fun u hu => by injection hu with hu; exact hu.symm⟩
  | retW => exact ⟨h1, fun u hu => by cases hu⟩
  | retR => exact ⟨he, h2⟩
  | _ => exact ⟨h1, h2⟩

/-- A thread inside, with nobody else holding the lock, does not wait. -/
theorem SInv.not_waits {s0 s cs K B} (h : SInv s0 s cs K B) {t : Nat} (hf : s.Free t) (hb : K.busy t ≠ none) : ¬ s.waits t := by
  rintro (hi | ⟨⟨c, hpc⟩, hw⟩ | ⟨⟨j, hpc⟩, hw⟩)
  · have := h.thr t
    rw [hi] at this
    exact hb this.of_idle
  · cases hwr : s.writer with
    | none => exact hw hwr
    | some u =>
      have hu := hf.2 u hwr
      subst hu
      have := (h.lock.wr u).mp hwr
      rw [hpc] at this; cases this
  · apply hw
    constructor
    · cases hwr : s.writer with
      | none => rfl
      | some u =>
        have hu := hf.2 u hwr
        subst hu
        have := (h.lock.wr u).mp hwr
        rw [hpc] at this; cases this
    · cases hrd : s.readers with
      | nil => rfl
      | cons u l =>
        have hm : u ∈ s.readers := by rw [hrd]; exact List.mem_cons_self
        have hu := hf.1 u hm
        subst hu
        have := (h.lock.rd u).mp hm
        rw [hpc] at this; cases this

/-- A thread that waits holds no lock. -/
theorem SS.waits.noLock {s : SS} {t : Nat} (h : s.waits t) : (s.pcs t).holdsR = false ∧ (s.pcs t).holdsW = false := by
  rcases h with h | ⟨⟨c, h⟩, _⟩ | ⟨⟨j, h⟩, _⟩ <;> rw [h] <;> exact ⟨rfl, rfl⟩

end Blink
