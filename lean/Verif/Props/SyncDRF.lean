import Verif.Proofs.Keeps
import Verif.Props.Sync
/-
  Property theorems about which memory the threads inside a `SyncBlinkAlloc` access, and when two of them may access the same
  byte: C70. `Touches` and `Writes` (Verif/Spec/Touch.lean) speak about what can be observed of a step.
-/
namespace Blink

theorem Touches.sees {s : SS} {t ch x} (h : Touches s (.go t ch) x) : (s.pcs t).sees s x := by
  apply Classical.byContradiction
  intro hn
  obtain ⟨v, hv⟩ := h
  exact hv (go_blind hn ch v)

theorem Writes.puts {s : SS} {t ch x} (h : Writes s (.go t ch) x) : (s.pcs t).puts s x := by
  apply Classical.byContradiction
  intro hn
  obtain ⟨v, r, s', hs, hv⟩ := h
  have : ¬ ((s.poke x v).pcs t).puts (s.poke x v) x := by
    show ¬ (s.pcs t).puts (s.poke x v) x
    cases hp : s.pcs t <;> rw [hp] at hn <;> exact hn
  have h1 := go_keeps this (ch := ch) hs
  rw [h1] at hv
  exact hv (s.w.poke_mem_eq x v)

theorem Pc.puts_sees {s x} {pc : Pc} (h : pc.puts s x) : pc.sees s x := by
  cases pc <;> simp only [Pc.puts, Pc.sees] at * <;> first | omega | exact .inl h | exact ⟨h.1, .inr h.2⟩

theorem Pc.sees_holds {s x} {pc : Pc} (h : pc.sees s x) : pc.holdsR = true ∨ pc.holdsW = true := by
  cases pc <;> first | exact h.elim | exact .inl rfl | exact .inr rfl | skip
  rename_i wr _ _ _ _ _
  cases wr
  · exact .inl rfl
  · exact .inr rfl

/-- What the next step of a thread can see: the header of the current chunk, memory that nobody holds, or a block of its own. -/
theorem SInv.sees {s0 s cs K B} (hi : SInv s0 s cs K B) {t x} (h : (s.pcs t).sees s x) :
    ((s.pcs t).holdsR = true ∧ s.root ≠ 0 ∧ s.root ≤ x ∧ x < s.root + 16) ∨
    ((s.pcs t).holdsW = true ∧ (¬ s.w.Holds x ∨ (s.root ≠ 0 ∧ s.root + 8 ≤ x ∧ x < s.root + 32))) ∨
    ∃ b ∈ B t, b.Has x := by
  have ht := hi.thr t
  obtain ⟨R, hL, _, _⟩ := hi.fam.focus t
  generalize s.pcs t = pc at ht h ⊢
  generalize K.busy t = bz at ht
  generalize B t = bt at ht hL ⊢
  cases ht <;> first | exact h.elim | skip
  case load hr hj => exact .inl ⟨rfl, hr, h.1, by have := h.2; omega⟩
  case cas hr hj => exact .inl ⟨rfl, hr, h.1, by have := h.2; omega⟩
  case rload hr hj ha hs => exact .inl ⟨rfl, hr, h.1, by have := h.2; omega⟩
  case rcas hr hj ha hs => exact .inl ⟨rfl, hr, h.1, by have := h.2; omega⟩
  case free hr hf => exact .inl ⟨rfl, hr, h.1, by have := h.2; omega⟩
  case slow hj => exact .inr (.inl ⟨rfl, h⟩)
  case copy b p old new wr sl k j hk hc =>
    refine .inr (.inr ?_)
    obtain ⟨hk', h⟩ := h
    rcases h with rfl | rfl
    · cases j with
      | resize hf hv hs =>
        have := hf.1; have := hf.2.2.2
        exact ⟨b, List.mem_cons_of_mem _ List.mem_cons_self, by simp only [Owned.Has]; omega⟩
    · have h1 := (hL.each (Owned.of sl new) (by simp)).1
      simp only [Owned.of] at h1
      exact ⟨Owned.of sl new, List.mem_cons_self, by simp only [Owned.Has, Owned.of]; omega⟩

/-- What the next step of a thread can write: the cursor of the current chunk, memory that nobody holds, or a block that it
obtained for its call. -/
theorem SInv.puts {s0 s cs K B} (hi : SInv s0 s cs K B) {t x} (h : (s.pcs t).puts s x) :
    ((s.pcs t).holdsR = true ∧ s.root ≠ 0 ∧ s.root ≤ x ∧ x < s.root + 8) ∨
    ((s.pcs t).holdsW = true ∧ ¬ s.w.Holds x) ∨
    ∃ b ∈ B t, b.Has x ∧ ∀ c b', K.busy t = some (c, some b') → ¬ b'.Has x := by
  have ht := hi.thr t
  obtain ⟨R, hL, _, _⟩ := hi.fam.focus t
  generalize s.pcs t = pc at ht h ⊢
  generalize K.busy t = bz at ht ⊢
  generalize B t = bt at ht hL ⊢
  cases ht <;> first | exact h.elim | skip
  case cas hr hj => exact .inl ⟨rfl, hr, h⟩
  case rcas hr hj ha hs => exact .inl ⟨rfl, hr, h⟩
  case free hr hf => exact .inl ⟨rfl, hr, h⟩
  case slow hj => exact .inr (.inl ⟨rfl, h⟩)
  case copy b p old new wr sl k j hk hc =>
    refine .inr (.inr ?_)
    obtain ⟨hk', rfl⟩ := h
    have h1 := (hL.each (Owned.of sl new) (by simp)).1
    simp only [Owned.of] at h1
    have h2 : (Owned.of sl new).Has (sl.addr + k) := by simp only [Owned.Has, Owned.of]; omega
    refine ⟨Owned.of sl new, List.mem_cons_self, h2, ?_⟩
    intro c b' he
    cases he
    have hap := (List.pairwise_append.mp hL.apart).2.1
    rw [List.cons_append, List.pairwise_cons] at hap
    exact fun hb => hap.1 b (by simp) _ ⟨h2, hb⟩

/-- Bytes of blocks that belong to somebody are held and are not part of a chunk header. -/
theorem SInv.used {s0 s cs K B} (hi : SInv s0 s cs K B) {x} (h : InUsed cs x 1) :
    s.w.Holds x ∧ (s.root ≠ 0 → x < s.root ∨ s.root + 32 ≤ x) := by
  constructor
  · obtain ⟨d, hd, h1, h2⟩ := h
    have := (hi.arena.ok d hd).hi
    refine ⟨d.blk, hi.arena.mem_held hd, ?_⟩
    simp only [Chunk.blk]
    omega
  · intro hr
    obtain ⟨c, tl, hcs, hrt⟩ := hi.cons hr
    have := hi.arena.used_not_hdr h (c := c) (by rw [hcs]; exact List.mem_cons_self)
    omega

theorem SInv.headHeld {s0 s cs K B} (hi : SInv s0 s cs K B) (hr : s.root ≠ 0) {x} (h1 : s.root ≤ x) (h2 : x < s.root + 32) :
    s.w.Holds x := by
  obtain ⟨c, tl, hcs, hrt⟩ := hi.cons hr
  have hc : c ∈ cs := by rw [hcs]; exact List.mem_cons_self
  have hok := hi.arena.ok c hc
  have := hok.lo; have := hok.hi
  refine ⟨c.blk, hi.arena.mem_held hc, ?_⟩
  simp only [Chunk.blk]
  omega

/-! ### C70 -/

/-- C70: a thread accesses memory only while it holds the lock, shared or exclusive. -/
theorem C70_lock {s0 s : SS} {K : Book} (h : SReach s0 s K) {t : Nat} {ch : Choice} {x : Nat} (hx : Touches s (.go t ch) x) :
    t ∈ s.readers ∨ s.writer = some t := by
  obtain ⟨cs, B, hi⟩ := h.inv
  rcases Pc.sees_holds hx.sees with h1 | h1
  · exact .inl ((hi.lock.rd t).mpr h1)
  · exact .inr ((hi.lock.wr t).mpr h1)

/-- `C70_no_race`, from what the program counters say. -/
theorem SInv.no_race {s0 s cs K B} (hi : SInv s0 s cs K B) {t u : Nat} (htu : t ≠ u) {x : Nat} (hw : (s.pcs u).puts s x)
    (hx : (s.pcs t).sees s x) : s.root ≠ 0 ∧ s.root ≤ x ∧ x < s.root + 8 := by
  have ht := hi.sees hx
  have hu := hi.puts hw
  have hex : (s.pcs u).holdsW = true → (s.pcs t).holdsR = true → False := by
    intro h1 h2
    rw [hi.lock.alone h1 t] at h2; cases h2
  have hex' : (s.pcs t).holdsW = true → (s.pcs u).holdsR = true → False := by
    intro h1 h2
    rw [hi.lock.alone h1 u] at h2; cases h2
  have hex2 : (s.pcs u).holdsW = true → (s.pcs t).holdsW = true → False := by
    intro h1 h2
    have h3 := (hi.lock.wr u).mpr h1
    have h4 := (hi.lock.wr t).mpr h2
    rw [h3] at h4; injection h4 with h4; exact htu h4.symm
  have hown : ∀ v, (∃ b ∈ B v, b.Has x) → InUsed cs x 1 := by
    rintro v ⟨b, hb, hbx⟩
    obtain ⟨R, hL, _, _⟩ := hi.fam.focus v
    exact hL.byte (by simp [hb]) hbx
  have hput : (∃ b ∈ B u, b.Has x ∧ ∀ c b', K.busy u = some (c, some b') → ¬ b'.Has x) → ∃ b ∈ B u, b.Has x :=
    fun ⟨b, h1, h2, _⟩ => ⟨b, h1, h2⟩
  rcases ht with ⟨t1, t2, t3, t4⟩ | ⟨t1, t2⟩ | t1
  · rcases hu with ⟨u1, u2, u3, u4⟩ | ⟨u1, u2⟩ | u1
    · exact ⟨u2, u3, u4⟩
    · exact (hex u1 t1).elim
    · have := (hi.used (hown u (hput u1))).2 t2
      omega
  · rcases hu with ⟨u1, _⟩ | ⟨u1, _⟩ | u1
    · exact (hex' t1 u1).elim
    · exact (hex2 u1 t1).elim
    · have := hi.used (hown u (hput u1))
      rcases t2 with t2 | ⟨t2, t3, t4⟩
      · exact absurd this.1 t2
      · have := this.2 t2; omega
  · rcases hu with ⟨u1, u2, u3, u4⟩ | ⟨u1, u2⟩ | ⟨b, hb, hbx, _⟩
    · have := (hi.used (hown t t1)).2 u2
      omega
    · exact absurd (hi.used (hown t t1)).1 u2
    · obtain ⟨b', hb', hbx'⟩ := t1
      obtain ⟨R, hL, hR, _⟩ := hi.fam.focus u
      have hap := hL.apart
      rw [List.pairwise_append] at hap
      have := List.pairwise_append.mp hap.2.1
      exact (this.2.2 b hb b' (hR t htu b' hb') x ⟨hbx, hbx'⟩).elim

/-- `C70_owned`, from what the program counters say. -/
theorem SInv.unseen {s0 s cs K B} (hi : SInv s0 s cs K B) {b : Owned} (hb : b ∈ K.owned) {x : Nat} (hx : b.Has x) (t : Nat) :
    ¬ (s.pcs t).sees s x := by
  intro ht
  obtain ⟨R, hL, _, _⟩ := hi.fam.focus t
  have hu := hi.used (hL.byte (List.mem_append_left _ hb) hx)
  rcases hi.sees ht with ⟨_, t2, t3, t4⟩ | ⟨_, t2 | ⟨t2, t3, t4⟩⟩ | ⟨b', hb', hbx'⟩
  · have := hu.2 t2; omega
  · exact t2 hu.1
  · have := hu.2 t2; omega
  · exact (List.pairwise_append.mp hL.apart).2.2 b hb b' (List.mem_append_left _ hb') x ⟨hx, hbx'⟩

/-- C70: if one thread can write a byte in its next step and another can access it in its next step, this byte belongs to the
cursor of the current chunk, which is accessed atomically. -/
theorem C70_no_race {s0 s : SS} {K : Book} (h : SReach s0 s K) {t u : Nat} (htu : t ≠ u) {ch ch' : Choice} {x : Nat}
    (hw : Writes s (.go u ch) x) (hx : Touches s (.go t ch') x) : s.root ≠ 0 ∧ s.root ≤ x ∧ x < s.root + 8 := by
  obtain ⟨cs, B, hi⟩ := h.inv
  exact hi.no_race htu hw.puts hx.sees

/-- C70: no thread inside the allocator accesses a block that the callers own. -/
theorem C70_owned {s0 s : SS} {K : Book} (h : SReach s0 s K) {b : Owned} (hb : b ∈ K.owned) {x : Nat} (hx : b.Has x) (t : Nat)
    (ch : Choice) : ¬ Touches s (.go t ch) x := by
  intro ht
  obtain ⟨cs, B, hi⟩ := h.inv
  exact hi.unseen hb hx t ht.sees

/-- A call that is not over has the block it was given, unless its new block is ready. -/
theorem SInv.handed {s0 s cs K B} (hi : SInv s0 s cs K B) {t c b} (hb : K.busy t = some (c, some b)) :
    b ∈ B t ∨ ∃ wr r, s.pcs t = .ret wr r := by
  have ht := hi.thr t
  rw [hb] at ht
  generalize s.pcs t = pc at ht ⊢
  generalize B t = bt at ht ⊢
  cases ht <;> first | exact .inr ⟨_, _, rfl⟩ | exact .inl List.mem_cons_self | skip
  all_goals first
    | exact .inl (List.mem_cons_of_mem _ List.mem_cons_self)
    | (rename_i hj; cases hj; exact .inl List.mem_cons_self)

/-- C70: the block given to a `grow`, `shrink` or `deallocate` is accessed by no other thread until that call has only its
result left to deliver. -/
theorem C70_handed {s0 s : SS} {K : Book} (h : SReach s0 s K) {u : Nat} {c : Call} {b : Owned}
    (hb : K.busy u = some (c, some b)) (hr : ∀ wr r, s.pcs u ≠ .ret wr r) {x : Nat} (hx : b.Has x) {t : Nat} (htu : t ≠ u)
    (ch : Choice) : ¬ Touches s (.go t ch) x := by
  intro ht
  obtain ⟨cs, B, hi⟩ := h.inv
  obtain ⟨R, hL, hR, _⟩ := hi.fam.focus t
  have hbu : b ∈ B u := by
    rcases hi.handed hb with h1 | ⟨wr, r, h1⟩
    · exact h1
    · exact absurd h1 (hr wr r)
  have hbR := hR u (Ne.symm htu) b hbu
  have hu := hi.used (hL.byte (by simp [hbR]) hx)
  rcases hi.sees ht.sees with ⟨_, t2, t3, t4⟩ | ⟨_, t2 | ⟨t2, t3, t4⟩⟩ | ⟨b', hb', hbx'⟩
  · have := hu.2 t2; omega
  · exact t2 hu.1
  · have := hu.2 t2; omega
  · have := List.pairwise_append.mp (List.pairwise_append.mp hL.apart).2.1
    exact this.2.2 b' hb' b hbR x ⟨hbx', hx⟩

/-- C70: the call that was given a block does not write to it. -/
theorem C70_not_written {s0 s : SS} {K : Book} (h : SReach s0 s K) {t : Nat} {c : Call} {b : Owned}
    (hb : K.busy t = some (c, some b)) {x : Nat} (hx : b.Has x) (ch : Choice) : ¬ Writes s (.go t ch) x := by
  intro hw
  obtain ⟨cs, B, hi⟩ := h.inv
  have hbt : b ∈ B t := by
    rcases hi.handed hb with h1 | ⟨wr, r, h1⟩
    · exact h1
    · have := hw.puts; rw [h1] at this; exact this.elim
  obtain ⟨R, hL, hR, _⟩ := hi.fam.focus t
  have hu := hi.used (hL.byte (by simp [hbt]) hx)
  rcases hi.puts hw.puts with ⟨_, t2, t3, t4⟩ | ⟨_, t2⟩ | ⟨b', hb', hbx', h2⟩
  · have := hu.2 t2; omega
  · exact t2 hu.1
  · exact h2 c b hb hx

/-- C70: in the headers of the chunks, the first 32 bytes of each block obtained from the underlying allocator, steps inside calls
write only the first word of the newest one. -/
theorem C70_headers {s0 s : SS} {K : Book} (h : SReach s0 s K) {t : Nat} {ch : Choice} {x : Nat}
    (hw : Writes s (.go t ch) x) {B : BaseBlk} (hB : B ∈ openBlocks s.w.log) (hx : B.addr ≤ x ∧ x < B.addr + 32) :
    (openBlocks s.w.log).head? = some B ∧ x < B.addr + 8 := by
  obtain ⟨cs, B', hi⟩ := h.inv
  rw [hi.log.1, List.mem_map] at hB
  obtain ⟨d, hd, rfl⟩ := hB
  simp only [Chunk.blk] at hx ⊢
  have hok := hi.arena.ok d hd
  have := hok.lo; have := hok.hi
  have hheld : s.w.Holds x := ⟨d.blk, hi.arena.mem_held hd, by simp only [Chunk.blk]; omega⟩
  rcases hi.puts hw.puts with ⟨_, t2, t3, t4⟩ | ⟨_, t2⟩ | ⟨b', hb', hbx', h2⟩
  · obtain ⟨c, tl, hcs, hrt⟩ := hi.cons t2
    have hc : c ∈ cs := by rw [hcs]; exact List.mem_cons_self
    have hokc := hi.arena.ok c hc
    have := hokc.lo; have := hokc.hi
    have hdc : d = c := by
      rw [hcs] at hd
      rcases List.mem_cons.mp hd with h1 | h1
      · exact h1
      · exfalso
        have hpw := hi.arena.pairwise
        rw [hcs, List.map_cons, List.cons_append, List.pairwise_cons] at hpw
        have h2 := hpw.1 d.blk (List.mem_append_left _ (List.mem_map_of_mem h1))
        simp only [BaseBlk.Disjoint, Chunk.blk] at h2
        omega
    subst hdc
    rw [hi.log.1, hcs]
    refine ⟨rfl, by omega⟩
  · exact absurd hheld t2
  · obtain ⟨R, hL, hR, _⟩ := hi.fam.focus t
    have := hi.arena.used_not_hdr (hL.byte (by simp [hb']) hbx') hd
    omega

/-! Non-vacuity of C70. -/

theorem Writes.touches {s : SS} {a x} (h : Writes s a x) : Touches s a x := by
  obtain ⟨v, r, s', hs, hv⟩ := h
  refine ⟨v, fun he => hv ?_⟩
  rw [hs] at he
  generalize sstep s a = o at he
  match o, he with
  | .ok (some (r1, s1)), he =>
    simp only [pokeRes, Except.ok.injEq, Option.some.injEq, Prod.mk.injEq] at he
    rw [he.2]
    exact s1.w.poke_mem_eq x v

/-- The byte at `y` after a step. -/
def memAfter (y : Nat) : Except Fault (Option (Option Resp × SS)) → Option Byte
  | .ok (some (_, s)) => some (s.w.mem y)
  | _ => none

theorem touches_of {s : SS} {a x v y} (h : memAfter y (sstep (s.poke x v) a) ≠ memAfter y (pokeRes x v (sstep s a))) :
    Touches s a x := ⟨v, fun he => h (by rw [he])⟩

theorem writes_of {s : SS} {a x v} (h : memAfter x (sstep (s.poke x v) a) ≠ none ∧ memAfter x (sstep (s.poke x v) a) ≠ some v) :
    Writes s a x := by
  generalize ho : sstep (s.poke x v) a = o at h
  match o, h with
  | .ok (some (r, s')), h => exact ⟨v, r, s', ho, fun he => h.2 (by simp only [memAfter, he])⟩
  | .ok none, h => exact absurd rfl h.1
  | .error e, h => exact absurd rfl h.1

/-- Two threads about to exchange the cursor. -/
def twoCasActs : List Act :=
  [.call 0 (.allocate ⟨8, 8⟩)] ++ goes 0 5 ++ [.call 1 (.allocate ⟨8, 8⟩)] ++ goes 1 2 ++ [.call 2 (.allocate ⟨24, 8⟩)] ++ goes 2 2

/-- Non-vacuity of `C70_no_race` and `C70_headers`: both threads write the cursor of the only chunk, both hold the lock. -/
example : ∃ s0 s K, SReach s0 s K ∧ Writes s (.go 1 fresh) 65536 ∧ Touches s (.go 2 fresh) 65536 ∧ Writes s (.go 2 fresh) 65536 ∧
    ⟨65536, 512, ⟨512, 8⟩⟩ ∈ openBlocks s.w.log ∧ 1 ∈ s.readers ∧ 2 ∈ s.readers := by
  obtain ⟨s, K, h, hf⟩ := of_sdemoAt (sizes := [512]) (m := 256) (as := twoCasActs)
    (f := fun s K =>
      decide (memAfter 65536 (sstep (s.poke 65536 (s.w.mem 65536)) (.go 1 fresh)) ≠ none ∧
        memAfter 65536 (sstep (s.poke 65536 (s.w.mem 65536)) (.go 1 fresh)) ≠ some (s.w.mem 65536)) &&
      decide (memAfter 65536 (sstep (s.poke 65536 (s.w.mem 65536)) (.go 2 fresh)) ≠ none ∧
        memAfter 65536 (sstep (s.poke 65536 (s.w.mem 65536)) (.go 2 fresh)) ≠ some (s.w.mem 65536)) &&
      decide (⟨65536, 512, ⟨512, 8⟩⟩ ∈ openBlocks s.w.log) && decide (1 ∈ s.readers) && decide (2 ∈ s.readers))
    (by decide) (by decide +kernel)
  simp only [Bool.and_eq_true, decide_eq_true_eq] at hf
  obtain ⟨⟨⟨⟨h1, h2⟩, h3⟩, h4⟩, h5⟩ := hf
  exact ⟨_, s, K, h, writes_of h1, (writes_of h2).touches, writes_of h2, h3, h4, h5⟩

/-- Non-vacuity of `C70_lock`, `C70_owned`, `C70_handed` and `C70_not_written`: thread 3 copies the block it was given to another
one, thread 1 is about to read the header, and a third block is owned. -/
example : ∃ s0 s K b, SReach s0 s K ∧ K.busy 3 = some (.resize 131120 ⟨24, 8⟩ ⟨40, 16⟩, some b) ∧ b.Has 131123 ∧
    (∀ wr r, s.pcs 3 ≠ .ret wr r) ∧ ⟨131144, 5, 5, 1⟩ ∈ K.owned ∧ Touches s (.go 3 fresh) 131123 ∧ Writes s (.go 3 fresh) 131155 ∧
    Touches s (.go 1 fresh) 131080 := by
  obtain ⟨s, K, h, hf⟩ := of_sdemoAt (sizes := [512, 1024, 2048]) (m := 256) (as := sdemoActs)
    (f := fun s K => decide (K.busy 3 = some (.resize 131120 ⟨24, 8⟩ ⟨40, 16⟩, some ⟨131120, 24, 24, 8⟩)) &&
      decide (s.pcs 3 = .copy false 131120 ⟨24, 8⟩ ⟨40, 16⟩ ⟨131152, 40⟩ 3) && decide (⟨131144, 5, 5, 1⟩ ∈ K.owned) &&
      decide (memAfter 131155 (sstep (s.poke 131123 (.raw 77)) (.go 3 fresh)) ≠
        memAfter 131155 (pokeRes 131123 (.raw 77) (sstep s (.go 3 fresh)))) &&
      decide (memAfter 131155 (sstep (s.poke 131155 (.raw 77)) (.go 3 fresh)) ≠ none ∧
        memAfter 131155 (sstep (s.poke 131155 (.raw 77)) (.go 3 fresh)) ≠ some (.raw 77)) &&
      decide (memAfter 0 (sstep (s.poke 131080 (.raw 77)) (.go 1 fresh)) ≠
        memAfter 0 (pokeRes 131080 (.raw 77) (sstep s (.go 1 fresh))))) (by decide) (by decide +kernel)
  simp only [Bool.and_eq_true, decide_eq_true_eq] at hf
  obtain ⟨⟨⟨⟨⟨h1, h2⟩, h3⟩, h4⟩, h5⟩, h6⟩ := hf
  exact ⟨_, s, K, _, h, h1, by simp [Owned.Has], by rw [h2]; simp, h3, touches_of h4, writes_of h5, touches_of h6⟩

end Blink
