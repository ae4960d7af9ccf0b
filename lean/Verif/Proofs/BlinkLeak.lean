import Verif.Proofs.BlinkRun
/-
  How many blocks `Blink` takes from an allocator of which nothing is known, and how many it gives back (for C83).
-/
namespace Blink

/-- Number of blocks in use. -/
def BState.inUse (b : BState) : Nat := b.s.w.held.length

/-- Number of blocks a waiting call owns. -/
def Frame.blks : Frame → Nat
  | .init .. => 1
  | .iter _ _ g _ => if g.blk.isSome = true then 1 else 0
  | .drain _ nd .. => if nd = true then 0 else 1

theorem Frame.blks_le (f : Frame) : f.blks ≤ 1 := by
  cases f <;> simp only [Frame.blks] <;> (try split) <;> omega

def blksOf (fs : List Frame) : Nat := (fs.map Frame.blks).sum

theorem blksOf_le (fs : List Frame) : blksOf fs ≤ fs.length := by
  induction fs with
  | nil => exact Nat.le_refl 0
  | cons f fs ih =>
    have := f.blks_le
    simp only [blksOf, List.map_cons, List.sum_cons, List.length_cons] at *
    omega

theorem FramesOK.length {k types dbg m} : ∀ {fs gs}, FramesOK k types dbg m fs gs → fs.length = gs.length
  | [], [], _ => rfl
  | [], _ :: _, h => h.elim
  | _ :: _, [], h => h.elim
  | _ :: _, _ :: _, h => congrArg (· + 1) (FramesOK.length h.2)

/-- A memory access does not change the blocks in use. -/
def HQuiet {α} (x : M α) : Prop := ∀ w a w', x w = .ok (a, w') → w'.held = w.held

theorem HQuiet.bind {α β} {x : M α} {f : α → M β} (hx : HQuiet x) (hf : ∀ a, HQuiet (f a)) : HQuiet (x >>= f) := by
  intro w c w' h
  obtain ⟨a, w1, h1, h2⟩ := mbind_inv h
  rw [hf a w1 c w' h2, hx w a w1 h1]

theorem hquiet_dassert (c : Prop) [Decidable c] (msg : String) : HQuiet (dassert c msg) := by
  intro w a w' h
  unfold dassert at h
  split at h
  · cases h
  · injection h with h; injection h with _ h; rw [← h]

theorem hquiet_require (c : Prop) [Decidable c] (msg : String) : HQuiet (require c msg) := by
  intro w a w' h
  unfold require at h
  split at h
  · injection h with h; injection h with _ h; rw [← h]
  · cases h

theorem hquiet_storeWord (a v : Nat) : HQuiet (storeWord a v) := by
  intro w c w' h
  unfold storeWord at h
  split at h
  · injection h with h; injection h with _ h; rw [← h]
  · cases h

theorem hquiet_writeIn (blk : Slice) (a n al : Nat) (f : Nat → Byte) : HQuiet (writeIn blk a n al f) := by
  intro w c w' h
  unfold writeIn at h
  split at h
  · injection h with h; injection h with _ h; rw [← h]
  · cases h

theorem hquiet_copy (a v n : Nat) : HQuiet (copyNonoverlapping a v n) := by
  intro w c w' h
  unfold copyNonoverlapping at h
  split at h
  · injection h with h; injection h with _ h; rw [← h]
  · cases h

theorem hquiet_slotGet (t : RTy) (a : Nat) : HQuiet (slotGet t a) := by
  intro w c w' h
  unfold slotGet at h
  split at h
  · injection h with h; injection h with _ h; rw [← h]
  · split at h
    · cases h
    · split at h <;> (injection h with h; injection h with _ h; rw [← h])
    · injection h with h; injection h with _ h; rw [← h]

theorem hquiet_initDrops (blk : Slice) (count fn : Nat) : HQuiet (initDrops blk count fn) :=
  .bind (hquiet_require _ _) fun _ => .bind (hquiet_storeWord _ _) fun _ => .bind (hquiet_storeWord _ _) fun _ => hquiet_storeWord _ _

/-- The number of blocks in use grew by `k'` and shrank by `k`; the waiting calls, types and allocator are the same. -/
structure Cnt (b b' : BState) (k k' : Nat) : Prop where
  n : b'.inUse + k = b.inUse + k'
  frames : b'.frames = b.frames
  kind : b'.kind = b.kind
  types : b'.types = b.types

theorem Cnt.refl (b : BState) : Cnt b b 0 0 := ⟨rfl, rfl, rfl, rfl⟩

theorem Cnt.trans {b b1 b2 k k' l l'} (h1 : Cnt b b1 k k') (h2 : Cnt b1 b2 l l') : Cnt b b2 (k + l) (k' + l') :=
  ⟨by have := h1.n; have := h2.n; omega, h2.frames.trans h1.frames, h2.kind.trans h1.kind, h2.types.trans h1.types⟩

theorem Cnt.mem {α} {b b' : BState} {x : M α} {a : α} (hx : HQuiet x) (h : b.mem x = .ok (a, b')) : Cnt b b' 0 0 := by
  obtain ⟨⟨c, w⟩, h1, h2⟩ := ebind_split h
  injection h2 with h2
  injection h2 with h2 h3
  subst h3
  refine ⟨?_, rfl, rfl, rfl⟩
  show w.held.length + 0 = b.s.w.held.length + 0
  rw [hx _ _ _ h1]

theorem length_erase_add {d : BaseBlk} {l : List BaseBlk} (h : d ∈ l) : (l.erase d).length + 1 = l.length := by
  have := List.length_erase_of_mem h
  have := List.length_pos_of_mem h
  omega

/-- How many blocks an answer of the allocator is about. -/
def Resp.blks : Resp → Nat
  | .block _ => 1
  | _ => 0

theorem baseAlloc_count {l : Layout} {w w' : World} {r} (h : baseAlloc l w = .ok (r, w')) :
    w'.held.length = w.held.length + if r.isSome = true then 1 else 0 := by
  unfold baseAlloc at h
  split at h
  · injection h with h; injection h with h1 h2; subst h1 h2; rfl
  · split at h
    · injection h with h; injection h with h1 h2; subst h1 h2; rfl
    · cases h

theorem baseResize_count {grow : Bool} {p : Nat} {old new : Layout} {w w' : World} {r} (h : baseResize grow p old new w = .ok (r, w')) :
    w'.held.length = w.held.length := by
  unfold baseResize at h
  split at h
  · cases h
  rename_i d hd
  split at h
  · cases h
  split at h
  · cases h
  split at h
  · injection h with h; injection h with h1 h2; subst h1 h2; rfl
  split at h
  · injection h with h; injection h with h1 h2; subst h1 h2
    exact length_erase_add (List.mem_of_find?_eq_some hd)
  · cases h

theorem baseDealloc_count {p : Nat} {l : Layout} {w w' : World} {r} (h : baseDealloc p l w = .ok (r, w')) :
    w'.held.length + 1 = w.held.length := by
  unfold baseDealloc at h
  split at h
  · rename_i d hd
    injection h with h; injection h with h1 h2; subst h2
    exact length_erase_add (List.mem_of_find?_eq_some hd)
  · cases h

theorem Cnt.allocate {b b' : BState} {l : Layout} {r} {exact keeps others} (hk : b.kind = .any exact keeps others)
    (h : b.allocate l = .ok (r, b')) : Cnt b b' 0 (if r.isSome = true then 1 else 0) := by
  obtain ⟨⟨c, st⟩, h1, h2⟩ := ebind_split h
  rw [hk] at h1
  obtain ⟨⟨q, w⟩, h3, h4⟩ := ebind_split h1
  injection h4 with h4
  injection h4 with h4 h5
  have := baseAlloc_count h3
  subst h4 h5
  cases q with
  | none =>
    injection h2 with h2; injection h2 with h2 h5; subst h2 h5
    exact ⟨by simpa [BState.inUse] using this, rfl, rfl, rfl⟩
  | some s =>
    injection h2 with h2; injection h2 with h2 h5; subst h2 h5
    exact ⟨by simpa [BState.inUse] using this, rfl, rfl, rfl⟩

theorem Cnt.grow {b b' : BState} {p : Nat} {old new : Layout} {r} {exact keeps others} (hk : b.kind = .any exact keeps others)
    (h : b.grow p old new = .ok (r, b')) : Cnt b b' 0 0 := by
  unfold BState.grow at h
  split at h
  · cases h
  obtain ⟨⟨c, st⟩, h1, h2⟩ := ebind_split h
  rw [hk] at h1
  obtain ⟨⟨q, w⟩, h3, h4⟩ := ebind_split h1
  injection h4 with h4
  injection h4 with h4 h5
  have := baseResize_count h3
  subst h4 h5
  cases q with
  | none =>
    injection h2 with h2; injection h2 with h2 h5; subst h2 h5
    exact ⟨by simpa [BState.inUse] using this, rfl, rfl, rfl⟩
  | some s =>
    injection h2 with h2; injection h2 with h2 h5; subst h2 h5
    exact ⟨by simpa [BState.inUse] using this, rfl, rfl, rfl⟩

theorem Cnt.dealloc {b b' : BState} {p : Nat} {l : Layout} {exact keeps others} (hk : b.kind = .any exact keeps others)
    (h : b.dealloc p l = .ok b') : Cnt b b' 1 0 := by
  simp only [BState.dealloc, hk] at h
  obtain ⟨⟨c, w⟩, h1, h2⟩ := ebind_split h
  injection h2 with h2
  subst h2
  have := baseDealloc_count h1
  exact ⟨by simpa [BState.inUse] using this, rfl, hk.symm, rfl⟩

theorem Cnt.add {b b' : BState} {i : Nat} (h : b.add i = .ok b') : Cnt b b' 0 0 := by
  obtain ⟨⟨c, b1⟩, h1, h2⟩ := ebind_split h
  have h3 := Cnt.mem (hquiet_storeWord _ _) h1
  injection h2 with h2
  subst h2
  exact ⟨h3.n, h3.frames, h3.kind, h3.types⟩

theorem Cnt.initSlice {b b' : BState} {r : Nat} {blk : Slice} {n a : Nat} (h : b.initSlice r blk n = .ok (a, b')) : Cnt b b' 0 0 := by
  obtain ⟨⟨_, b1⟩, h1, h2⟩ := ebind_split h
  obtain ⟨⟨_, b2⟩, h3, h4⟩ := ebind_split h2
  injection h4 with h4
  injection h4 with _ h4
  subst h4
  exact (Cnt.mem (hquiet_dassert _ _) h1).trans (Cnt.mem (hquiet_initDrops _ _ _) h3)

/-- Emplacing one value: the block is given back if there is no reference to it. -/
theorem Cnt.finish {b b' : BState} {r : Nat} {nd : Bool} {re : Layout} {blk : Slice} {res : Res} {resp : BResp} {exact keeps others}
    (hk : b.kind = .any exact keeps others) (h : b.finish r nd re blk res = .ok (resp, b')) :
    (∃ a, resp = .ref a ∧ Cnt b b' 0 0) ∨ ∃ e, resp = .failed e ∧ Cnt b b' 1 0 := by
  unfold BState.finish at h
  dsimp only at h
  split at h
  · obtain ⟨⟨_, b1⟩, h1, h2⟩ := ebind_split h
    obtain ⟨⟨e, b2⟩, h3, h4⟩ := ebind_split h2
    have c := (Cnt.mem (hquiet_writeIn _ _ _ _ _) h1).trans (Cnt.mem (hquiet_slotGet _ _) h3)
    cases e with
    | none => injection h4 with h4; injection h4 with h4 h5; subst h4 h5; exact .inl ⟨_, rfl, c⟩
    | some e =>
      obtain ⟨b3, h5, h6⟩ := ebind_split h4
      injection h6 with h6; injection h6 with h6 h7; subst h6 h7
      exact .inr ⟨_, rfl, c.trans (Cnt.dealloc (c.kind.trans hk) h5)⟩
  · obtain ⟨⟨_, b1⟩, h1, h2⟩ := ebind_split h
    obtain ⟨⟨_, b2⟩, h3, h4⟩ := ebind_split h2
    obtain ⟨⟨e, b3⟩, h5, h6⟩ := ebind_split h4
    have c := ((Cnt.mem (hquiet_writeIn _ _ _ _ _) h1).trans (Cnt.mem (hquiet_initDrops _ _ _) h3)).trans (Cnt.mem (hquiet_slotGet _ _) h5)
    cases e with
    | none =>
      obtain ⟨b4, h7, h8⟩ := ebind_split h6
      injection h8 with h8; injection h8 with h8 h9; subst h8 h9
      exact .inl ⟨_, rfl, c.trans (Cnt.add h7)⟩
    | some e =>
      obtain ⟨b4, h7, h8⟩ := ebind_split h6
      injection h8 with h8; injection h8 with h8 h9; subst h8 h9
      exact .inr ⟨_, rfl, c.trans (Cnt.dealloc (c.kind.trans hk) h7)⟩

/-- Number of blocks a guard owns. -/
def Guard.n (g : Guard) : Nat := if g.blk.isSome = true then 1 else 0

/-- `fill` up to its loop. -/
theorem Cnt.fillStart {b b' : BState} {r : Nat} {nd : Bool} {g : Guard} {hint : Nat} {x : Option Nat} {og} {exact keeps others}
    (hk : b.kind = .any exact keeps others) (h : b.fillStart r nd g hint x = .ok (og, b')) :
    (∃ g', og = some g' ∧ Cnt b b' g.n g'.n) ∨ (og = none ∧ Cnt b b' 0 0) := by
  unfold BState.fillStart at h
  dsimp only at h
  split at h
  · injection h with h; injection h with h1 h2; subst h1 h2; exact .inr ⟨rfl, .refl _⟩
  rename_i full off _
  obtain ⟨⟨_, b1⟩, h1, h2⟩ := ebind_split h
  have c1 := Cnt.mem (hquiet_dassert _ _) h1
  have tail : ∀ {res : Option Slice} {b2 : BState}, (match res with
      | none => pure (none, b2)
      | some blk => do
        let ((), b) ← b2.mem (dassert (full.size ≤ blk.len) "len == full_layout.size()")
        let cap := if full.size < blk.len then (blk.len - arrOff (b1.types r) nd) / (b1.types r).size else hint
        let g : Guard := { g with blk := some blk, layout := full, cap := cap }
        match x with
        | none => pure (some g, b)
        | some x => do
          let ((), b) ← b.mem (dassert (g.count < g.cap) "self.count < self.cap")
          let ((), b) ← b.mem (writeIn blk (blk.addr + arrOff (b1.types r) nd + g.count * (b1.types r).size) (b1.types r).size
            (b1.types r).align (slotByte (b1.types r) (.ok x)))
          pure (some { g with count := g.count + 1 }, b) : Except Fault (Option Guard × BState)) = .ok (og, b') →
      Cnt b1 b2 0 (if res.isSome = true then 1 - g.n else 0) →
      (∃ g', og = some g' ∧ Cnt b b' g.n g'.n) ∨ (og = none ∧ Cnt b b' 0 0) := by
    intro res b2 h4 c2
    have c := c1.trans c2
    cases res with
    | none =>
      injection h4 with h4; injection h4 with h4 h5; subst h4 h5
      exact .inr ⟨rfl, c⟩
    | some blk =>
      obtain ⟨⟨_, b3⟩, h5, h6⟩ := ebind_split h4
      have c3 := c.trans (Cnt.mem (hquiet_dassert _ _) h5)
      have hn : ∀ g' : Guard, g'.blk = some blk → ∀ {c : BState}, Cnt b c 0 (1 - g.n) → Cnt b c g.n g'.n := by
        intro g' hg' c hc
        refine ⟨?_, hc.frames, hc.kind, hc.types⟩
        have := hc.n
        have : g'.n = 1 := by simp [Guard.n, hg']
        have : g.n ≤ 1 := by unfold Guard.n; split <;> omega
        omega
      cases x with
      | none =>
        injection h6 with h6; injection h6 with h6 h7; subst h6 h7
        exact .inl ⟨_, rfl, hn _ rfl (by simpa using c3)⟩
      | some v =>
        obtain ⟨⟨_, b4⟩, h7, h8⟩ := ebind_split h6
        obtain ⟨⟨_, b5⟩, h9, h10⟩ := ebind_split h8
        injection h10 with h10; injection h10 with h10 h11; subst h10 h11
        exact .inl ⟨_, rfl, hn _ rfl (by simpa using (c3.trans (Cnt.mem (hquiet_dassert _ _) h7)).trans (Cnt.mem (hquiet_writeIn _ _ _ _ _) h9))⟩
  rw [← c1.types] at h2
  dsimp only at h2
  cases hg : g.blk with
  | none =>
    rw [hg] at h2
    obtain ⟨⟨res, b2⟩, h3, h4⟩ := ebind_split h2
    refine tail h4 ?_
    have := Cnt.allocate (c1.kind.trans hk) h3
    simpa [Guard.n, hg] using this
  | some old =>
    rw [hg] at h2
    obtain ⟨⟨res, b2⟩, h3, h4⟩ := ebind_split h2
    refine tail h4 ?_
    have := Cnt.grow (c1.kind.trans hk) h3
    simpa [Guard.n, hg] using this

/-- `flush`: an empty block is given back. -/
theorem Cnt.flush {b b' : BState} {r : Nat} {nd : Bool} {g : Guard} {a n : Nat} {exact keeps others}
    (hk : b.kind = .any exact keeps others) (h : b.flush r nd g = .ok ((a, n), b')) :
    Cnt b b' g.n (if n = 0 then 0 else 1) := by
  unfold BState.flush at h
  dsimp only at h
  unfold Guard.n
  split at h
  · rename_i hg
    injection h with h; injection h with h1 h2; injection h1 with _ h1; subst h1 h2
    rw [hg]; exact .refl _
  rename_i blk hg
  rw [hg]
  split at h
  · rename_i h0
    have hone : ∀ {c : BState}, Cnt b c 0 0 → Cnt b c (if (some blk).isSome = true then 1 else 0) (if g.count = 0 then 0 else 1) := by
      intro c hc
      rw [if_neg h0]
      exact ⟨by have := hc.n; simp; omega, hc.frames, hc.kind, hc.types⟩
    split at h
    · injection h with h; injection h with h1 h2; injection h1 with _ h1; subst h1 h2
      exact hone (.refl _)
    · obtain ⟨⟨a', b1⟩, h1, h2⟩ := ebind_split h
      obtain ⟨b2, h3, h4⟩ := ebind_split h2
      injection h4 with h4; injection h4 with h4 h5; injection h4 with _ h4; subst h4 h5
      exact hone ((Cnt.initSlice h1).trans (Cnt.add h3))
  · obtain ⟨b1, h1, h2⟩ := ebind_split h
    injection h2 with h2; injection h2 with h2 h3; injection h2 with _ h2; subst h2 h3
    exact Cnt.dealloc hk h1

/-- What a waiting call that owned `k` blocks did when it went on, `b` being the state without it: it waits again, or it ended with a
reference to one block (`n ≠ 0`), or without. -/
inductive Went (b : BState) (k : Nat) : BResp → BState → Prop
  | wait {q f b'} (hc : b'.inUse + k = b.inUse + f.blks) (hf : b'.frames = f :: b.frames) : Went b k (.wait q) b'
  | slice {a n b'} (hc : b'.inUse + k = b.inUse + if n = 0 then 0 else 1) (hf : b'.frames = b.frames) : Went b k (.slice a n) b'
  | err {a n x b'} (hc : b'.inUse + k = b.inUse + if n = 0 then 0 else 1) (hf : b'.frames = b.frames) : Went b k (.iterErr a n x) b'

theorem Went.iterHint {b b' : BState} {r nd g ph lower upper resp} {exact keeps others} (hk : b.kind = .any exact keeps others)
    (h : b.iterHint r nd g ph lower upper = .ok (resp, b')) : Went b g.n resp b' := by
  have fin : ∀ {hnt x y}, (do
      match ← b.fillStart r nd g hnt x with
      | (some g, b) => b.wait (.iter r nd g (fillPhase g.count (fillLimit nd g hnt)))
      | (none, b) => do
        let ((a, n), b) ← b.flush r nd g
        pure (.iterErr a n y, b) : Except Fault (BResp × BState)) = .ok (resp, b') → Went b g.n resp b' := by
    intro hnt x y h
    obtain ⟨⟨o, b1⟩, h1, h2⟩ := ebind_split h
    rcases Cnt.fillStart hk h1 with ⟨g', rfl, c⟩ | ⟨rfl, c⟩
    · injection h2 with h2; injection h2 with h2 h3; subst h2 h3
      exact .wait (f := .iter r nd g' _) c.n (by rw [← c.frames])
    · obtain ⟨⟨⟨a, n⟩, b2⟩, h3, h4⟩ := ebind_split h2
      have c2 := c.trans (Cnt.flush (c.kind.trans hk) h3)
      injection h4 with h4; injection h4 with h4 h5; subst h4 h5
      exact .err (by have := c2.n; omega) c2.frames
  unfold BState.iterHint at h
  cases ph with
  | hint0 =>
    dsimp only at h
    split at h
    · exact fin h
    · injection h with h2; injection h2 with h2 h3; subst h2 h3; exact .wait rfl rfl
  | hint x =>
    dsimp only at h
    split at h
    · obtain ⟨⟨⟨a, n⟩, b2⟩, h3, h4⟩ := ebind_split h
      have c2 := Cnt.flush hk h3
      injection h4 with h4; injection h4 with h4 h5; subst h4 h5
      exact .err c2.n c2.frames
    · exact fin h
  | one => cases h
  | fill l => cases h

theorem Went.iterNext {b b' : BState} {r nd g ph x resp} {exact keeps others} (hk : b.kind = .any exact keeps others)
    (h : b.iterNext r nd g ph x = .ok (resp, b')) : Went b g.n resp b' := by
  unfold BState.iterNext at h
  cases ph with
  | hint0 => cases h
  | hint x => cases h
  | one =>
    cases x with
    | none =>
      obtain ⟨⟨⟨a, n⟩, b2⟩, h3, h4⟩ := ebind_split h
      have c2 := Cnt.flush hk h3
      injection h4 with h4; injection h4 with h4 h5; subst h4 h5
      exact .slice c2.n c2.frames
    | some v => injection h with h2; injection h2 with h2 h3; subst h2 h3; exact .wait rfl rfl
  | fill l =>
    dsimp only at h
    split at h
    · cases h
    · rename_i blk hb
      split at h
      · obtain ⟨⟨_, b1⟩, h1, h2⟩ := ebind_split h
        have c := Cnt.mem (hquiet_writeIn _ _ _ _ _) h1
        injection h2 with h2; injection h2 with h2 h3; subst h2 h3
        exact .wait (f := .iter r nd { g with count := g.count + 1 } _) (by have := c.n; show b1.inUse + g.n = b.inUse + g.n; omega) (by rw [← c.frames])
      · split at h
        · obtain ⟨⟨_, b1⟩, h1, h2⟩ := ebind_split h
          have c := Cnt.mem (hquiet_writeIn _ _ _ _ _) h1
          injection h2 with h2; injection h2 with h2 h3; subst h2 h3
          exact .wait (f := .iter r nd g _) (by have := c.n; show b1.inUse + g.n = b.inUse + g.n; omega) (by rw [← c.frames])
        · injection h with h2; injection h2 with h2 h3; subst h2 h3; exact .wait rfl rfl

/-- The same for zero-sized items. -/
inductive WentZ (b : BState) (k : Nat) : BResp → BState → Prop
  | wait {q f b'} (hc : b'.inUse + k = b.inUse + f.blks) (hf : b'.frames = f :: b.frames) : WentZ b k (.wait q) b'
  | slice {a n b'} (hc : b'.inUse = b.inUse) (hf : b'.frames = b.frames) : WentZ b k (.slice a n) b'
  | panicked {reg b'} : WentZ b k (.panicked reg) b'

theorem WentZ.done {b b' : BState} {r nd blk n resp k} (h : b.drainDone r nd blk n = .ok (resp, b')) : WentZ b k resp b' := by
  unfold BState.drainDone at h
  split at h
  · injection h with h2; injection h2 with h2 h3; subst h2 h3; exact .slice rfl rfl
  · obtain ⟨⟨a', b1⟩, h1, h2⟩ := ebind_split h
    obtain ⟨b2, h3, h4⟩ := ebind_split h2
    injection h4 with h4; injection h4 with h4 h5; subst h4 h5
    have c := (Cnt.initSlice h1).trans (Cnt.add h3)
    exact .slice (by have := c.n; omega) c.frames

theorem WentZ.hint {b b' : BState} {r nd blk drained lower resp} (h : b.drainHint r nd blk drained lower = .ok (resp, b')) :
    WentZ b (if nd = true then 0 else 1) resp b' := by
  unfold BState.drainHint at h
  split at h
  · injection h with h2; injection h2 with h2 h3; subst h2 h3; exact .wait rfl rfl
  · obtain ⟨⟨_, b1⟩, h1, h2⟩ := ebind_split h
    have c := Cnt.mem (hquiet_dassert _ _) h1
    injection h2 with h2; injection h2 with h2 h3; subst h2 h3
    exact .wait (f := .drain r nd blk _ _) (by have := c.n; show b1.inUse + _ = b.inUse + (if nd = true then 0 else 1); omega) (by rw [← c.frames])

theorem dropLoose_cnt {b : BState} {t : RTy} {v : Nat} : Cnt b (b.dropLoose t v).2 0 0 := by
  unfold BState.dropLoose
  split <;> exact ⟨rfl, rfl, rfl, rfl⟩

theorem WentZ.next {b b' : BState} {r nd blk drained k x resp} (h : b.drainNext r nd blk drained k x = .ok (resp, b')) :
    WentZ b (if nd = true then 0 else 1) resp b' := by
  unfold BState.drainNext at h
  cases x with
  | none => exact WentZ.done h
  | some v =>
    dsimp only at h
    have c := dropLoose_cnt (b := b) (t := b.types r) (v := v)
    generalize b.dropLoose (b.types r) v = q at h c
    obtain ⟨p, b1⟩ := q
    dsimp only at h c
    have lift : ∀ {resp b'}, WentZ b1 (if nd = true then 0 else 1) resp b' → WentZ b (if nd = true then 0 else 1) resp b' := by
      intro resp b' hw
      have cn := c.n
      cases hw with
      | @wait q f b' hc hf => exact .wait (f := f) (by omega) (by rw [hf, c.frames])
      | slice hc hf => exact .slice (by omega) (by rw [hf, c.frames])
      | panicked => exact .panicked
    split at h
    · injection h with h2; injection h2 with h2 h3; subst h2 h3; exact .panicked
    · split at h
      · obtain ⟨⟨_, b2⟩, h1, h2⟩ := ebind_split h
        have c2 := c.trans (Cnt.mem (hquiet_dassert _ _) h1)
        injection h2 with h2; injection h2 with h2 h3; subst h2 h3
        exact .wait (f := .drain r nd blk _ _) (by have := c2.n; show b2.inUse + _ = b.inUse + (if nd = true then 0 else 1); omega) (by rw [← c2.frames])
      · split at h
        · exact lift (WentZ.done h)
        · injection h with h2; injection h2 with h2 h3; subst h2 h3
          exact lift (.wait rfl rfl)

/-- Blocks that user code and the waiting calls account for. -/
def BState.accounts (b : BState) (bk : BBook) : Nat := bk.refs.length + bk.direct.length + blksOf b.frames

theorem blksOf_cons (f : Frame) (fs : List Frame) : blksOf (f :: fs) = f.blks + blksOf fs := by
  simp [blksOf]

theorem pushSlice_length {bk : BBook} {t : RTy} {nd : Bool} {a n : Nat} :
    bk.refs.length + (if n = 0 then 0 else 1) ≤ (bk.pushSlice t nd a n).refs.length := by
  unfold BBook.pushSlice BBook.push
  by_cases h : n = 0 ∧ t.tsize ≠ 0
  · rw [if_pos h, if_pos h.1]; exact Nat.le_refl _
  · rw [if_neg h]; simp only [List.length_cons]; split <;> omega

theorem pushSlice_length_zst {bk : BBook} {t : RTy} {nd : Bool} {a n : Nat} (h : t.tsize = 0) :
    (bk.pushSlice t nd a n).refs.length = bk.refs.length + 1 := by
  unfold BBook.pushSlice BBook.push
  rw [if_neg (fun hc => hc.2 h)]
  rfl

theorem pushSlice_rest {bk : BBook} {t : RTy} {nd : Bool} {a n : Nat} : (bk.pushSlice t nd a n).direct = bk.direct := by
  unfold BBook.pushSlice BBook.push
  split <;> rfl

/-- A waiting call goes on. -/
theorem Went.accounts {b0 b b' : BState} {bk : BBook} {fb : FBook} {resp : BResp} {k : Nat} (h : Went b k resp b') :
    b'.inUse + (bk.refs.length + bk.direct.length + (k + blksOf b.frames)) ≤ b.inUse + b'.accounts (bk.land b0.types fb resp) := by
  unfold BState.accounts
  cases h with
  | wait hc hf => rw [hf, blksOf_cons]; simp only [BBook.land]; omega
  | @slice a n b' hc hf =>
    have := pushSlice_length (bk := bk) (t := b0.types fb.r) (nd := fb.nd) (a := a) (n := n)
    simp only [BBook.land]
    rw [hf, pushSlice_rest]
    omega
  | @err a n x b' hc hf =>
    have := pushSlice_length (bk := bk) (t := b0.types fb.r) (nd := fb.nd) (a := a) (n := n)
    simp only [BBook.land]
    rw [hf, pushSlice_rest]
    omega

theorem WentZ.accounts {b0 b b' : BState} {bk : BBook} {fb : FBook} {resp : BResp} {k : Nat} (h : WentZ b k resp b') (hk : k ≤ 1)
    (hz : (b0.types fb.r).tsize = 0) (hn : ∀ reg, resp ≠ .panicked reg) :
    b'.inUse + (bk.refs.length + bk.direct.length + (k + blksOf b.frames)) ≤ b.inUse + b'.accounts (bk.land b0.types fb resp) := by
  unfold BState.accounts
  cases h with
  | wait hc hf => rw [hf, blksOf_cons]; simp only [BBook.land]; omega
  | @slice a n b' hc hf =>
    have := pushSlice_length_zst (bk := bk) (nd := fb.nd) (a := a) (n := n) hz
    simp only [BBook.land]
    rw [hf, pushSlice_rest]
    omega
  | panicked => exact absurd rfl (hn _)

theorem anyStep_count {exact keeps others} {s s' : St} {op : Op} {r : Resp} {L L' : List Owned} (hn : op.NoReset)
    (h : anyStep exact keeps others s op = .ok (r, s')) (ha : After L op r L') :
    s'.w.held.length + L.length = s.w.held.length + L'.length := by
  have alloc : ∀ {l : Layout} {q : Option Slice} {w : World} {s' : St}, w.held.length = s.w.held.length + (if q.isSome = true then 1 else 0) →
      Resp.ofOption (q.map (trim exact l)) = r → ({ s with w := w } : St) = s' →
      s'.w.held.length = s.w.held.length + r.blks := by
    intro l q w s' hc hr hs
    subst hr hs
    cases q <;> exact hc
  have erase : ∀ {o : Owned}, o ∈ L → (L.erase o).length + 1 = L.length := by
    intro o ho
    have := List.length_erase_of_mem ho
    have := List.length_pos_of_mem ho
    omega
  cases op with
  | allocate l =>
    obtain ⟨⟨q, w⟩, h1, h2⟩ := ebind_split h
    injection h2 with h2; injection h2 with h2 h3
    have := alloc (baseAlloc_count h1) h2 h3
    cases ha <;> simp only [Resp.blks, List.length_cons] at * <;> omega
  | allocateZeroed l =>
    obtain ⟨⟨q, w⟩, h1, h2⟩ := ebind_split h
    injection h2 with h2; injection h2 with h2 h3
    have hc : w.held.length = s.w.held.length + (if q.isSome = true then 1 else 0) := by
      obtain ⟨q1, w1, h4, h5⟩ := mbind_inv h1
      have := baseAlloc_count h4
      cases q1 with
      | none => injection h5 with h5; injection h5 with h5 h6; subst h5 h6; exact this
      | some sl =>
        obtain ⟨u, w2, h6, h7⟩ := mbind_inv h5
        injection h7 with h7; injection h7 with h7 h8; subst h7 h8
        unfold writeZeros at h6
        split at h6
        · injection h6 with h6; injection h6 with _ h6; subst h6; exact this
        · cases h6
    have := alloc hc h2 h3
    cases ha <;> simp only [Resp.blks, List.length_cons] at * <;> omega
  | resize p old new =>
    obtain ⟨⟨q, w⟩, h1, h2⟩ := ebind_split h
    injection h2 with h2; injection h2 with h2 h3
    have hc := baseResize_count h1
    subst h3
    cases ha with
    | resizeOk hb hf => have := erase hb; simp only [List.length_cons]; show w.held.length + _ = _; omega
    | resizeErr => show w.held.length + _ = _; omega
  | growZeroed p old new =>
    obtain ⟨⟨q, w⟩, h1, h2⟩ := ebind_split h
    injection h2 with h2; injection h2 with h2 h3
    have hc : w.held.length = s.w.held.length := by
      unfold anyGrowZeroed at h1
      split at h1
      · rename_i sl w1 h4
        injection h1 with h1; injection h1 with _ h1; subst h1
        have := baseResize_count h4
        exact this
      · exact baseResize_count h1
    subst h3
    cases ha with
    | growZeroedOk hb hf => have := erase hb; simp only [List.length_cons]; show w.held.length + _ = _; omega
    | growZeroedErr => show w.held.length + _ = _; omega
  | deallocate p n =>
    obtain ⟨⟨q, w⟩, h1, h2⟩ := ebind_split h
    injection h2 with h2; injection h2 with h2 h3
    have hc : w.held.length + 1 = s.w.held.length := by
      unfold anyDealloc at h1
      split at h1
      · exact baseDealloc_count h1
      · cases h1
    subst h3
    cases ha with
    | deallocate hb hf => have := erase hb; show w.held.length + _ = _; omega
  | reset => exact absurd rfl hn.1
  | resetFinal => exact absurd rfl hn.2
  | write x v =>
    injection h with h; injection h with _ h
    subst h
    cases ha
    rfl

/-- One action: whatever is in use afterwards is accounted for, if it was before. -/
theorem Wk.accounts {b0 b b' : BState} {bk bk' : BBook} {cs items K m0} {op : BOp} {resp : BResp} {exact keeps others}
    (h : Wk b0 b bk cs items [] K m0) (hk : b0.kind = .any exact keeps others) (hl : b0.legal bk op)
    (hs : bstep b op = .ok (resp, b')) (ha : BAfter b0.types b0.kind bk op resp bk') (hd : ¬ op.drops) (hp : op ≠ .panic)
    (ht : ∀ reg, resp ≠ .panicked reg) : b'.inUse + b.accounts bk ≤ b.inUse + b'.accounts bk' := by
  have hkb : b.kind = .any exact keeps others := h.kind.trans hk
  have one : ∀ {l : Layout} {q : Option Slice} {b1 : BState}, b.allocate l = .ok (q, b1) → Cnt b b1 0 (if q.isSome = true then 1 else 0) :=
    fun h1 => Cnt.allocate hkb h1
  cases ha with
  | direct ha =>
    rename_i o r L
    obtain ⟨⟨r1, st⟩, h1, h2⟩ := ebind_split hs
    injection h2 with h2; injection h2 with h2 h3; injection h2 with h2; subst h2 h3
    rw [hkb] at h1
    have hn : o.NoReset := by cases hl.1 with | direct _ hn => exact hn
    have := anyStep_count hn h1 ha
    show st.w.held.length + (bk.refs.length + bk.direct.length + blksOf b.frames) ≤ b.s.w.held.length + (bk.refs.length + L.length + blksOf b.frames)
    omega
  | other hnd =>
  have ret : op.isRet = true → b'.inUse + b.accounts bk ≤ b.inUse + b'.accounts (bookAfter b0.types b0.kind bk op resp) := by
    intro hr
    have hne := legal_frames hr hl.1
    obtain ⟨fb, fbs, hbf⟩ : ∃ fb fbs, bk.frames = fb :: fbs := by
      cases hbk : bk.frames with
      | nil => exact absurd hbk hne
      | cons a l => exact ⟨a, l, rfl⟩
    obtain ⟨f, fs, hf⟩ := h.frames_cons hne
    rw [bstep_ret hr hf] at hs
    rw [bookAfter_ret hr hbf]
    have hfo := h.frames
    rw [hf, hbf] at hfo
    have hfr := hfo.1
    have hacc : b.accounts bk = bk.refs.length + bk.direct.length + (f.blks + blksOf fs) := by
      unfold BState.accounts; rw [hf, blksOf_cons]
    rw [hacc]
    have hka : ({ b with frames := fs } : BState).kind = .any exact keeps others := hkb
    cases op with
    | ret res =>
      cases f with
      | init r nd re blk =>
        rcases Cnt.finish hka hs with ⟨a, rfl, c⟩ | ⟨e, rfl, c⟩
        · have := c.n
          have hfr := c.frames
          unfold BState.accounts
          rw [hfr]
          show _ ≤ b.inUse + ((_ :: bk.refs).length + bk.direct.length + blksOf fs)
          simp only [List.length_cons, Frame.blks]
          show b'.inUse + _ ≤ _
          have : b'.inUse + 0 = b.inUse + 0 := this
          omega
        · have := c.n
          have hfr := c.frames
          unfold BState.accounts
          rw [hfr]
          show _ ≤ b.inUse + (bk.refs.length + bk.direct.length + blksOf fs)
          simp only [Frame.blks]
          have : b'.inUse + 1 = b.inUse + 0 := this
          omega
      | iter => cases hs
      | drain => cases hs
    | panic => exact absurd rfl hp
    | hint lower upper =>
      cases f with
      | init => cases hs
      | iter r nd g ph => exact (Went.iterHint hka hs).accounts (b0 := b0) (bk := { bk with frames := fbs }) (fb := fb.tell (.hint lower upper))
      | drain r nd blk drained ph =>
        cases ph with
        | hint =>
          have hz : (b0.types fb.r).tsize = 0 := by
            have h1 : DrainOK b0.types b0.s.w.debug r nd blk drained .hint fb := hfr
            have := (h.start.types r).plain h1.plain
            have := h1.sz
            rw [h1.r_]; omega
          exact (WentZ.hint hs).accounts (b0 := b0) (bk := { bk with frames := fbs }) (fb := fb.tell (.hint lower upper)) (by split <;> omega) hz ht
        | next => cases hs
        | nth l => cases hs
    | next x =>
      cases f with
      | init => cases hs
      | iter r nd g ph => exact (Went.iterNext hka hs).accounts (b0 := b0) (bk := { bk with frames := fbs }) (fb := fb.tell (.next x))
      | drain r nd blk drained ph =>
        cases ph with
        | next =>
          have hz : (b0.types fb.r).tsize = 0 := by
            have h1 : DrainOK b0.types b0.s.w.debug r nd blk drained .next fb := hfr
            have := (h.start.types r).plain h1.plain
            have := h1.sz
            rw [h1.r_]; omega
          exact (WentZ.next (b := { b with frames := fs }) (k := none) (x := x) (drained := drained) (blk := blk) (r := r) (nd := nd) hs).accounts (b0 := b0) (bk := { bk with frames := fbs }) (fb := fb.tell (.next x)) (by split <;> omega) hz ht
        | hint => cases hs
        | nth l => cases hs
    | nth x =>
      cases f with
      | init => cases hs
      | iter r nd g ph => cases hs
      | drain r nd blk drained ph =>
        cases ph with
        | nth l =>
          have hz : (b0.types (fb.tell (.nth x)).r).tsize = 0 := by
            have h1 : DrainOK b0.types b0.s.w.debug r nd blk drained (.nth l) fb := hfr
            have := (h.start.types r).plain h1.plain
            have := h1.sz
            have hr : (fb.tell (.nth x)).r = fb.r := by simp only [FBook.tell]; split <;> rfl
            rw [hr, h1.r_]; omega
          exact (WentZ.next (b := { b with frames := fs }) (k := some l) (x := x) (drained := drained) (blk := blk) (r := r) (nd := nd) hs).accounts (b0 := b0) (bk := { bk with frames := fbs }) (fb := fb.tell (.nth x)) (by split <;> omega) hz ht
        | next => cases hs
        | hint => cases hs
    | _ => cases hr
  cases op with
  | ret res => exact ret rfl
  | panic => exact absurd rfl hp
  | hint => exact ret rfl
  | next => exact ret rfl
  | nth => exact ret rfl
  | dropAll => exact absurd trivial hd
  | direct o => exact absurd rfl (hnd o)
  | write x v =>
    injection hs with hs; injection hs with _ hs; subst hs
    exact Nat.le_refl _
  | value e r re v =>
    obtain ⟨⟨q, b1⟩, h1, h2⟩ := ebind_split hs
    have c := one h1
    cases q with
    | none =>
      injection h2 with h2; injection h2 with h2 h3; subst h2 h3
      have := c.n
      unfold BState.accounts
      rw [c.frames]
      show b1.inUse + (bk.refs.length + _ + _) ≤ b.inUse + (bk.refs.length + bk.direct.length + _)
      simp at this
      omega
    | some blk =>
      rcases Cnt.finish (c.kind.trans hkb) h2 with ⟨a, rfl, c2⟩ | ⟨e, rfl, c2⟩
      · have c3 := c.trans c2
        have := c3.n
        unfold BState.accounts
        rw [c3.frames]
        show b'.inUse + (bk.refs.length + _ + _) ≤ b.inUse + ((_ :: bk.refs).length + bk.direct.length + _)
        simp at this
        simp only [List.length_cons]
        omega
      · have c3 := c.trans c2
        have := c3.n
        unfold BState.accounts
        rw [c3.frames]
        show b'.inUse + (bk.refs.length + _ + _) ≤ b.inUse + (bk.refs.length + bk.direct.length + _)
        simp at this
        omega
  | «with» e r re =>
    obtain ⟨⟨q, b1⟩, h1, h2⟩ := ebind_split hs
    have c := one h1
    have := c.n
    cases q with
    | none =>
      injection h2 with h2; injection h2 with h2 h3; subst h2 h3
      unfold BState.accounts
      rw [c.frames]
      show b1.inUse + (bk.refs.length + _ + _) ≤ b.inUse + (bk.refs.length + bk.direct.length + _)
      simp at this
      omega
    | some blk =>
      injection h2 with h2; injection h2 with h2 h3; subst h2 h3
      unfold BState.accounts
      show b1.inUse + (bk.refs.length + _ + _) ≤ b.inUse + (bk.refs.length + _ + blksOf (_ :: b1.frames))
      rw [c.frames, blksOf_cons]
      simp at this
      simp only [Frame.blks]
      show b1.inUse + (bk.refs.length + bk.direct.length + blksOf b.frames) ≤ b.inUse + (bk.refs.length + bk.direct.length + _)
      omega
  | fromIter e r =>
    have noblk : ∀ {f : Frame}, ({ b with frames := f :: b.frames } : BState).inUse + b.accounts bk ≤
        b.inUse + ({ b with frames := f :: b.frames } : BState).accounts (bookAfter b0.types b0.kind bk (.fromIter e r) (.wait f.ask)) := by
      intro f
      unfold BState.accounts
      rw [blksOf_cons]
      show b.inUse + (bk.refs.length + bk.direct.length + blksOf b.frames) ≤ b.inUse + (bk.refs.length + bk.direct.length + _)
      omega
    unfold bstep BState.start at hs
    dsimp only at hs
    split at hs
    · split at hs
      · injection hs with hs; injection hs with h2 h3; subst h2 h3
        exact noblk
      · rename_i hnd
        obtain ⟨⟨q, b1⟩, h1, h2⟩ := ebind_split hs
        have c := one h1
        have := c.n
        cases q with
        | none =>
          injection h2 with h2; injection h2 with h2 h3; subst h2 h3
          unfold BState.accounts
          rw [c.frames]
          show b1.inUse + (bk.refs.length + _ + _) ≤ b.inUse + (bk.refs.length + bk.direct.length + _)
          simp at this
          omega
        | some blk =>
          injection h2 with h2; injection h2 with h2 h3; subst h2 h3
          unfold BState.accounts
          show b1.inUse + (bk.refs.length + _ + _) ≤ b.inUse + (bk.refs.length + _ + blksOf (_ :: b1.frames))
          rw [c.frames, blksOf_cons]
          simp at this
          simp only [Frame.blks]
          rw [if_neg hnd]
          show b1.inUse + (bk.refs.length + bk.direct.length + blksOf b.frames) ≤ b.inUse + (bk.refs.length + bk.direct.length + _)
          omega
    · injection hs with hs; injection hs with h2 h3; subst h2 h3
      exact noblk
  | copySlice src es ea n =>
    obtain ⟨⟨q, b1⟩, h1, h2⟩ := ebind_split hs
    have c := one h1
    cases q with
    | none =>
      have := c.n
      injection h2 with h2; injection h2 with h2 h3; subst h2 h3
      unfold BState.accounts
      rw [c.frames]
      show b1.inUse + (bk.refs.length + _ + _) ≤ b.inUse + (bk.refs.length + bk.direct.length + _)
      simp at this
      omega
    | some blk =>
      obtain ⟨⟨_, b2⟩, h3, h4⟩ := ebind_split h2
      obtain ⟨⟨_, b3⟩, h5, h6⟩ := ebind_split h4
      have c := (c.trans (Cnt.mem (hquiet_require _ _) h3)).trans (Cnt.mem (hquiet_copy _ _ _) h5)
      have := c.n
      injection h6 with h6; injection h6 with h6 h7; subst h6 h7
      unfold BState.accounts
      rw [c.frames]
      show b3.inUse + (bk.refs.length + _ + _) ≤ b.inUse + ((_ :: bk.refs).length + bk.direct.length + _)
      simp at this
      simp only [List.length_cons]
      show b3.inUse + (bk.refs.length + bk.direct.length + _) ≤ b.inUse + (bk.refs.length + 1 + bk.direct.length + _)
      omega
  | uninit l =>
    obtain ⟨⟨q, b1⟩, h1, h2⟩ := ebind_split hs
    have c := one h1
    have := c.n
    cases q with
    | none =>
      injection h2 with h2; injection h2 with h2 h3; subst h2 h3
      unfold BState.accounts
      rw [c.frames]
      show b1.inUse + (bk.refs.length + _ + _) ≤ b.inUse + (bk.refs.length + bk.direct.length + _)
      simp at this
      omega
    | some blk =>
      injection h2 with h2; injection h2 with h2 h3; subst h2 h3
      unfold BState.accounts
      rw [c.frames]
      show b1.inUse + (bk.refs.length + _ + _) ≤ b.inUse + ((_ :: bk.refs).length + bk.direct.length + _)
      simp at this
      simp only [List.length_cons]
      show b1.inUse + (bk.refs.length + bk.direct.length + _) ≤ b.inUse + (bk.refs.length + 1 + bk.direct.length + _)
      omega
  | reset => exact absurd trivial hd
  | send => exact absurd trivial hd
  | dropBlink => exact absurd trivial hd

end Blink
