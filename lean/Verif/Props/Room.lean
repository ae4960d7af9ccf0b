import Verif.Props.Local
/-
  Property theorems about where blocks are placed and when the underlying allocator is asked: C07, C08, C13, C18, C19.
  `St.room` (Verif/Spec/Client.lean) reads the unused part of the current chunk from the chunk's header.
-/
namespace Blink

theorem Inv.room {s0 s cs L} (h : Inv s0 s cs L) : s.room = cs.head?.map (fun c => (c.cursor, c.end_)) := by
  unfold St.room
  rw [h.root]
  cases cs with
  | nil => rfl
  | cons c t =>
    have hne : rootOf (c :: t) ≠ 0 := by rw [Ne, rootOf_eq_zero h.arena.ok]; simp
    rw [if_neg hne]
    have h1 := h.arena.rep.1
    simp only [rootOf, decodeWord_of h1.1, decodeWord_of h1.2.1, List.head?_cons, Option.map_some]

theorem bump_of_fit {pos e q : Nat} {l : Layout} (hl : l.Valid) (h1 : pos ≤ q) (h2 : q % l.align = 0) (h3 : q + l.size ≤ e)
    (h4 : pos + l.size + l.align ≤ USIZE) : bump pos e l = some (roundUp pos l.align) := by
  obtain ⟨k, _, hk, hpos, _⟩ := hl.facts
  have hr := roundUp_facts pos hpos
  unfold bump
  rw [if_pos]
  refine ⟨by omega, ?_⟩
  have : roundUp pos l.align ≤ q := by
    obtain ⟨i, hi⟩ : ∃ i, q = l.align * i := ⟨q / l.align, by have := Nat.div_add_mod q l.align; omega⟩
    obtain ⟨j, hj⟩ : ∃ j, roundUp pos l.align = l.align * j :=
      ⟨roundUp pos l.align / l.align, by have := Nat.div_add_mod (roundUp pos l.align) l.align; omega⟩
    apply Decidable.byContradiction
    intro hc
    have hlt : i < j := by
      apply Decidable.byContradiction
      intro hc'
      have := Nat.mul_le_mul_left l.align (show j ≤ i by omega)
      omega
    have := Nat.mul_le_mul_left l.align hlt
    rw [Nat.mul_succ] at this
    omega
  omega

theorem bump_le {pos e q a : Nat} {l : Layout} (hl : l.Valid) (hb : bump pos e l = some a) (h1 : pos ≤ q)
    (h2 : q % l.align = 0) : a ≤ q := by
  obtain ⟨k, _, hk, hpos, _⟩ := hl.facts
  have hf := bump_facts hl hb
  obtain ⟨i, hi⟩ : ∃ i, q = l.align * i := ⟨q / l.align, by have := Nat.div_add_mod q l.align; omega⟩
  obtain ⟨j, hj⟩ : ∃ j, a = l.align * j := ⟨a / l.align, by have := Nat.div_add_mod a l.align; omega⟩
  apply Decidable.byContradiction
  intro hc
  have hlt : i < j := by
    apply Decidable.byContradiction
    intro hc'
    have := Nat.mul_le_mul_left l.align (show j ≤ i by omega)
    omega
  have := Nat.mul_le_mul_left l.align hlt
  rw [Nat.mul_succ] at this
  omega

theorem nextPow2_le_16384 {n : Nat} (h : n < 16384) : nextPow2 n ≤ 16384 := by
  obtain ⟨m, h1, h2, h3⟩ := nextPow2_spec (n := n) (by omega)
  rw [h1, show (16384 : Nat) = 2 ^ 14 from rfl]
  exact Nat.pow_le_pow_right (by decide) (h3 14 (by omega))

theorem roundChunk_le (n : Nat) : roundChunk n ≤ n + 16384 := by
  unfold roundChunk
  split
  · have := nextPow2_le_16384 (n := n) (by assumption); omega
  · split
    · have := (roundUp_facts n (a := 16384) (by decide)).2.1; omega
    · omega

theorem chunkReq_none {rc : Option Nat} {m : Nat} {l : Layout} (h : chunkReq rc m l = none) :
    USIZE ≤ need rc m l + 16384 + 7 := by
  unfold chunkReq at h
  rw [slowChunkSize_eq] at h
  split at h
  · rename_i cs hcs
    split at hcs
    · cases hcs
    · omega
  · rename_i cs hcs
    split at hcs
    · injection hcs with hcs
      have := roundChunk_le (need rc m l)
      apply Decidable.byContradiction
      intro hc
      rw [alignUp8 (by omega)] at h
      cases h
    · cases hcs

theorem bump_of_cost {pos e : Nat} {l : Layout} (hl : l.Valid) (h : pos + (l.size + l.align - 1) ≤ e) (he : e < USIZE) :
    ∃ a, bump pos e l = some a ∧ a + l.size ≤ pos + (l.size + l.align - 1) := by
  obtain ⟨k, _, hk, hpos, _⟩ := hl.facts
  have hr := roundUp_facts pos hpos
  refine ⟨roundUp pos l.align, ?_, by omega⟩
  unfold bump
  rw [if_pos (by omega)]

/-- The step does something and does not fail, given the chunk has room for the cost of the call. -/
theorem Inv.warm {s0 s c t L} (h : Inv s0 s (c :: t) L) {op : Op} (hl : Legal L op) (hn : op.NoReset)
    (hroom : c.cursor + op.cost ≤ c.end_) :
    ∃ r s' c', Blink.step s op = .ok (r, s') ∧ r ≠ .err ∧ Quiet s s' ∧ (∀ L', After L op r L' → Inv s0 s' (c' :: t) L') ∧
      c'.start = c.start ∧ c'.end_ = c.end_ ∧ c'.cursor ≤ c.cursor + op.cost := by
  have he := h.arena.chunk_rng (c := c) List.mem_cons_self
  have nofit : ∀ {l : Layout}, l.Valid → c.cursor + (l.size + l.align - 1) ≤ c.end_ → ¬ NoFit (c :: t) l := by
    intro l hv hc hnf
    obtain ⟨a, ha, _⟩ := bump_of_cost hv hc he
    rw [hnf c t rfl] at ha
    cases ha
  have fast : ∀ {l : Layout} {o w' cs'}, l.Valid → c.cursor + (l.size + l.align - 1) ≤ c.end_ →
      AllocRes s.w (c :: t) s.a.minChunk l o w' cs' →
      ∃ a, o = some ⟨a, l.size⟩ ∧ cs' = { c with cursor := a + l.size } :: t ∧ a + l.size ≤ c.cursor + (l.size + l.align - 1) ∧
        w'.calls = s.w.calls ∧ w'.log = s.w.log ∧ w'.held = s.w.held := by
    intro l o w' cs' hv hc hr
    cases hr with
    | fast c' t' a hcs hb =>
      injection hcs with h1 h2
      subst h1; subst h2
      obtain ⟨a', ha', hle⟩ := bump_of_cost hv hc he
      rw [hb] at ha'
      injection ha' with ha'
      subst ha'
      exact ⟨a, rfl, rfl, hle, rfl, rfl, rfl⟩
    | slow hb _ => exact absurd hb (nofit hv hc)
  rcases h.step' hl with ⟨e, ⟨_, hnc⟩, _⟩ | ⟨r, s', cs', hs, hr, hi⟩
  · exfalso
    cases hl with
    | allocate hv => exact nofit hv hroom hnc.1
    | allocateZeroed hv => exact nofit hv hroom hnc.1
    | resize _ _ hv => exact nofit hv hroom hnc.1.2.2
    | growZeroed _ _ hv _ => exact nofit hv hroom hnc.1
    | deallocate => exact hnc
    | reset => exact hnc
    | resetFinal => exact hnc
    | write => exact hnc
  · cases hl with
    | allocate hv =>
      obtain ⟨o, ho, hr⟩ := hr
      obtain ⟨a, rfl, rfl, hle, h1, h2, h3⟩ := fast hv hroom hr
      exact ⟨r, s', _, hs, by rw [ho]; nofun, ⟨h1, h2, h3⟩, hi, rfl, rfl, hle⟩
    | allocateZeroed hv =>
      obtain ⟨o, w1, ho, hr, hw⟩ := hr
      obtain ⟨a, rfl, rfl, hle, h1, h2, h3⟩ := fast hv hroom hr
      simp only at hw
      exact ⟨r, s', _, hs, by rw [ho]; nofun, by unfold Quiet; rw [hw]; exact ⟨h1, h2, h3⟩, hi, rfl, rfl, hle⟩
    | growZeroed _ _ hv _ =>
      obtain ⟨o, w1, ho, hr, hw⟩ := hr
      obtain ⟨a, rfl, rfl, hle, h1, h2, h3⟩ := fast hv hroom hr
      simp only at hw
      exact ⟨r, s', _, hs, by rw [ho]; nofun, by unfold Quiet; rw [hw]; exact ⟨h1, h2, h3⟩, hi, rfl, rfl, hle⟩
    | @resize b p old new hb hf hv =>
      obtain ⟨o, ho, hr⟩ := hr
      generalize hw' : s'.w = w' at hr
      cases hr with
      | same ha hs' =>
        exact ⟨r, s', c, hs, by rw [ho]; nofun, by unfold Quiet; rw [hw']; exact ⟨rfl, rfl, rfl⟩, hi, rfl, rfl,
          by omega⟩
      | grow c' t' hcs ha hs' htip hfit =>
        injection hcs with h1 h2
        subst h1; subst h2
        refine ⟨r, s', _, hs, by rw [ho]; nofun, by unfold Quiet; rw [hw']; exact ⟨rfl, rfl, rfl⟩, hi, rfl, rfl, ?_⟩
        obtain ⟨k, _, hk, hpos, _⟩ := hv.facts
        simp only [Op.cost]
        omega
      | move s1 w1 cs1 hn' hg hr =>
        obtain ⟨a, hs1, rfl, hle, h1, h2, h3⟩ := fast hv hroom hr
        exact ⟨r, s', _, hs, by rw [ho]; nofun, by unfold Quiet; rw [hw']; exact ⟨h1, h2, h3⟩, hi, rfl, rfl, hle⟩
      | fail w1 cs1 hn' hg hr =>
        obtain ⟨a, hs1, _⟩ := fast hv hroom hr
        cases hs1
    | deallocate =>
      obtain ⟨ho, hw, rfl⟩ := hr
      exact ⟨r, s', c, hs, by rw [ho]; nofun, by unfold Quiet; rw [hw]; exact ⟨rfl, rfl, rfl⟩, hi, rfl, rfl,
        by omega⟩
    | reset => exact absurd rfl hn.1
    | resetFinal => exact absurd rfl hn.2
    | write =>
      obtain ⟨ho, hw, rfl⟩ := hr
      exact ⟨r, s', c, hs, by rw [ho]; nofun, by unfold Quiet; rw [hw]; exact ⟨rfl, rfl, rfl⟩, hi, rfl, rfl,
        by omega⟩

/-! ### C07 -/

/-- C07 in full, as documented in src/api.rs: `shrink` succeeds and does not move the block whenever the pointer is already
aligned for the new layout. -/
def C07_full : Prop :=
  ∀ (s0 s : St) (L : List Owned), Reach s0 s L → ∀ (p : Nat) (old new : Layout), Legal L (.resize p old new) →
    new.size ≤ old.size → p % new.align = 0 → ∃ s' b, step s (.resize p old new) = .ok (.block b, s') ∧ b.addr = p

/-- The code does not keep this promise: shrinking an align-1 block that happens to be 16-aligned to align 16 fails when the
current chunk is full and the underlying allocator refuses. -/
theorem C07_full_false : ¬ C07_full := by
  intro hf
  obtain ⟨s, s', h1, h2, h3, _⟩ := step_of_demo (sizes := [512]) (m := 256)
    (ops := [.allocate ⟨480, 1⟩]) (op := .resize 65568 ⟨480, 1⟩ ⟨100, 16⟩) (r := .err) (L := [⟨65568, 480, 480, 1⟩]) (by decide)
    (by decide +kernel)
  obtain ⟨s'', b, h4, _⟩ := hf _ s _ h1 65568 ⟨480, 1⟩ ⟨100, 16⟩ h2 (by decide) (by decide)
  rw [h3] at h4
  cases h4

/-- C07, what holds: if the alignment is not increased, a shrink succeeds, keeps the address, keeps the whole old length and
changes nothing at all. Missing: alignment increased although the pointer is already aligned (see `C07_full_false`). -/
theorem C07_shrink_partial {s0 s : St} {L : List Owned} (h : Reach s0 s L) {p : Nat} {old new : Layout}
    (hl : Legal L (.resize p old new)) (hs : new.size ≤ old.size) (ha : new.align ≤ old.align) :
    step s (.resize p old new) = .ok (.block ⟨p, old.size⟩, s) := by
  obtain ⟨cs, hI⟩ := h.inv
  rcases hI.step' hl with ⟨e, ⟨_, hnc⟩, _⟩ | ⟨r, s', cs', hst, ⟨o, ho, hr⟩, hi⟩
  · exact absurd ⟨ha, hs⟩ hnc.1.1
  · have h0 : s'.a = s.a → s'.w = s.w → s' = s := by
      intro e1 e2; cases s; cases s'; simp only at *; rw [e1, e2]
    generalize hw' : s'.w = w' at hr
    cases hr with
    | same =>
      cases hl with
      | resize hb hf hv =>
        have hi' := hi _ (by rw [ho]; exact .resizeOk hb hf)
        rw [hst, ho, h0 _ hw']
        · rfl
        · have h1 := hi'.root.trans hI.root.symm
          have h2 := hi'.min.trans hI.min.symm
          cases hsa : s.a; cases hsa' : s'.a
          simp only [hsa, hsa'] at *
          rw [h1, h2]
    | grow c t hcs ha' hs' => omega
    | move s1 w1 cs1 hn => exact absurd ⟨ha, hs⟩ hn
    | fail w1 cs1 hn => exact absurd ⟨ha, hs⟩ hn

/-- The exact boundary of C07: if the alignment is increased, a shrink to a non-empty block never stays in place. -/
theorem C07_align_increase_moves {s0 s s' : St} {L : List Owned} (h : Reach s0 s L) {p : Nat} {old new : Layout}
    (hl : Legal L (.resize p old new)) (hs : new.size ≤ old.size) (hz : 0 < new.size) (ha : old.align < new.align) {b : Slice}
    (hst : step s (.resize p old new) = .ok (.block b, s')) : b.addr ≠ p := by
  obtain ⟨cs, hI⟩ := h.inv
  cases hl with
  | resize hb hf hv =>
    obtain ⟨cs', ⟨o, ho, hr⟩, _⟩ := hI.step_ok (.resize hb hf hv) hst (.resizeOk hb hf)
    cases o with
    | none => cases ho
    | some s1 =>
      injection ho with ho
      subst ho
      generalize hw' : s'.w = w' at hr
      cases hr with
      | same ha' => omega
      | grow c t hcs ha' => omega
      | move s1 w1 cs1 hn hg hr =>
        have hfr := hr.fresh hI.arena hv
        have := hfr.2.2.2 _ _ (InUsed.of_fits hI.led hb hf)
        have := hfr.1
        omega

example : ∃ s0 s L, Reach s0 s L ∧ Legal L (.resize 65680 ⟨10, 16⟩ ⟨4, 8⟩) :=
  let ⟨s, h⟩ := demo_reach
  ⟨_, s, _, h, .resize (b := ⟨65680, 10, 10, 16⟩) (by decide) ⟨rfl, rfl, by decide, by decide⟩ ⟨⟨3, rfl⟩, by decide⟩⟩

example : ∃ s0 s L s' b, Reach s0 s L ∧ Legal L (.resize 65568 ⟨48, 1⟩ ⟨10, 16⟩) ∧
    step s (.resize 65568 ⟨48, 1⟩ ⟨10, 16⟩) = .ok (.block b, s') :=
  let ⟨s, s', h1, h2, h3, _⟩ := step_of_demo (sizes := [512]) (m := 256)
    (ops := [.allocate ⟨48, 1⟩]) (op := .resize 65568 ⟨48, 1⟩ ⟨10, 16⟩) (r := .block ⟨65616, 10⟩) (L := [⟨65568, 48, 48, 1⟩])
    (by decide) (by decide +kernel)
  ⟨_, s, _, s', _, h1, h2, h3⟩

/-! ### C19 -/

/-- C19: an allocation that needs no new chunk starts less than `align` bytes after the end `pos` of the used part of the
current chunk, stays inside the chunk, and the used part then ends where the new block ends. -/
theorem C19_bump {s0 s s' : St} {L : List Owned} (h : Reach s0 s L) {l : Layout} (hl : l.Valid) {b : Slice}
    (hs : step s (.allocate l) = .ok (.block b, s')) (hq : s'.w.calls = s.w.calls) :
    ∃ pos e, s.room = some (pos, e) ∧ pos ≤ b.addr ∧ b.addr < pos + l.align ∧ b.len = l.size ∧ b.addr + b.len ≤ e ∧
      s'.room = some (b.addr + b.len, e) := by
  obtain ⟨cs, hI⟩ := h.inv
  obtain ⟨cs', ⟨o, ho, hr⟩, hI'⟩ := hI.step_ok (.allocate hl) hs .allocOk
  cases o with
  | none => cases ho
  | some s1 =>
    injection ho with ho
    subst ho
    rw [hI.room, hI'.room]
    generalize s'.w = w' at hr hq
    cases hr with
    | fast c t a hcs hb =>
      subst hcs
      have := bump_facts hl hb
      exact ⟨c.cursor, c.end_, rfl, this.1, this.2.1, rfl, this.2.2.2, rfl⟩
    | slow hb hsl =>
      cases hsl with
      | ok => simp only at hq; omega

/-- C19 for the first allocation from a new chunk: at most `align - 1` bytes are lost after the chunk's 32-byte header. -/
theorem C19_new_chunk {s0 s s' : St} {L : List Owned} (h : Reach s0 s L) {l : Layout} (hl : l.Valid) {b : Slice}
    (hs : step s (.allocate l) = .ok (.block b, s')) (hq : s'.w.calls ≠ s.w.calls) :
    ∃ B rest, openBlocks s'.w.log = B :: rest ∧ rest = openBlocks s.w.log ∧ B.addr + 32 ≤ b.addr ∧
      b.addr < B.addr + 32 + l.align ∧ b.len = l.size ∧ b.addr + b.len ≤ B.addr + B.len ∧
      s'.room = some (b.addr + b.len, B.addr + B.len) := by
  obtain ⟨cs, hI⟩ := h.inv
  obtain ⟨cs', ⟨o, ho, hr⟩, hI'⟩ := hI.step_ok (.allocate hl) hs .allocOk
  cases o with
  | none => cases ho
  | some s1 =>
    injection ho with ho
    subst ho
    rw [hI'.room, hI'.log.1, hI.log.1]
    generalize s'.w = w' at hr hq
    cases hr with
    | fast c t a hcs hb => exact absurd rfl hq
    | slow hb hsl =>
      cases hsl with
      | ok R sl m' h' ho' hf hb' hm hu =>
        have := bump_facts hl hb'
        refine ⟨_, _, rfl, rfl, ?_⟩
        simp only [newChunk, Chunk.blk, List.head?_cons, Option.map_some]
        refine ⟨by omega, by omega, trivial, by omega, ?_⟩
        congr 2
        omega

example : ∃ s0 s L s' b, Reach s0 s L ∧ Layout.Valid ⟨10, 16⟩ ∧ step s (.allocate ⟨10, 16⟩) = .ok (.block b, s') ∧
    s'.w.calls = s.w.calls ∧ L ≠ [] := by
  obtain ⟨s, L, r, s', h1, _, h3, _, h5⟩ := of_demoAt (sizes := [512, 2048]) (m := 256) (ops := [.allocate ⟨100, 8⟩])
    (op := .allocate ⟨10, 16⟩) (f := fun s L r s' => r == .block ⟨65680, 10⟩ && s'.w.calls == s.w.calls && !L.isEmpty)
    (by decide) (by decide +kernel)
  simp only [Bool.and_eq_true, beq_iff_eq, Bool.not_eq_true', List.isEmpty_eq_false_iff] at h5
  obtain ⟨⟨rfl, h6⟩, h7⟩ := h5
  exact ⟨_, s, L, s', _, h1, ⟨⟨4, rfl⟩, by decide⟩, h3, h6, h7⟩

/-- Non-vacuity of `C19_new_chunk`, with an alignment that exceeds the chunk's. -/
example : ∃ s0 s L s' b, Reach s0 s L ∧ Layout.Valid ⟨10, 4096⟩ ∧ step s (.allocate ⟨10, 4096⟩) = .ok (.block b, s') ∧
    s'.w.calls ≠ s.w.calls ∧ L ≠ [] := by
  obtain ⟨s, L, r, s', h1, _, h3, _, h5⟩ := of_demoAt (sizes := [512, 8192]) (m := 256) (ops := [.allocate ⟨100, 8⟩])
    (op := .allocate ⟨10, 4096⟩) (f := fun s L r s' => r == .block ⟨135168, 10⟩ && s'.w.calls != s.w.calls && !L.isEmpty)
    (by decide) (by decide +kernel)
  simp only [Bool.and_eq_true, beq_iff_eq, bne_iff_ne, Bool.not_eq_true', List.isEmpty_eq_false_iff] at h5
  obtain ⟨⟨rfl, h6⟩, h7⟩ := h5
  exact ⟨_, s, L, s', _, h1, ⟨⟨12, rfl⟩, by decide⟩, h3, h6, h7⟩

/-! ### C08 -/

/-- C08: growing the block that ends where the used part of the current chunk ends, without raising the alignment, succeeds in
place if the chunk has room; nothing is asked of the underlying allocator, exactly the additional bytes are consumed, and no
byte outside the chunk's header changes. -/
theorem C08_grow_in_place {s0 s : St} {L : List Owned} (h : Reach s0 s L) {p pos e : Nat} {old new : Layout}
    (hl : Legal L (.resize p old new)) (hroom : s.room = some (pos, e)) (htip : p + old.size = pos)
    (ha : new.align ≤ old.align) (hs : old.size < new.size) (hfit : p + new.size ≤ e) :
    ∃ s', step s (.resize p old new) = .ok (.block ⟨p, new.size⟩, s') ∧ Quiet s s' ∧ s'.room = some (p + new.size, e) ∧
      s'.a = s.a ∧ ∀ x, (x < s.a.root ∨ s.a.root + 8 ≤ x) → s'.w.mem x = s.w.mem x := by
  obtain ⟨cs, hI⟩ := h.inv
  rw [hI.room] at hroom
  cases cs with
  | nil => cases hroom
  | cons c t =>
    simp only [List.head?_cons, Option.map_some, Option.some.injEq, Prod.mk.injEq] at hroom
    obtain ⟨rfl, rfl⟩ := hroom
    rcases hI.step' hl with ⟨e, ⟨_, hnc⟩, _⟩ | ⟨r, s', cs', hst, ⟨o, ho, hr⟩, hi⟩
    · exact absurd ⟨ha, by omega, hfit⟩ (hnc.1.2.1 c t rfl)
    · cases hl with
      | resize hb hf hv =>
      generalize hw' : s'.w = w' at hr
      cases hr with
      | same ha' hs' => omega
      | grow c' t' hcs ha' hs' htip' hfit' =>
        injection hcs with h1 h2
        subst h1; subst h2
        have hi' := hi _ (by rw [ho]; exact .resizeOk hb hf)
        refine ⟨s', by rw [hst, ho]; rfl, by unfold Quiet; rw [hw']; exact ⟨rfl, rfl, rfl⟩, by rw [hi'.room]; rfl, ?_, ?_⟩
        · have h1 := hi'.root.trans hI.root.symm
          have h2 := hi'.min.trans hI.min.symm
          cases hsa : s.a; cases hsa' : s'.a
          simp only [hsa, hsa'] at *
          rw [h1, h2]
        · intro x hx
          rw [hI.root] at hx
          simp only [rootOf] at hx
          rw [hw']
          exact setBytes_out hx
      | move s1 w1 cs1 hn hg => exact absurd ⟨ha, by omega, hfit⟩ (hg c t rfl)
      | fail w1 cs1 hn hg => exact absurd ⟨ha, by omega, hfit⟩ (hg c t rfl)

/-- C08 without mentioning the chunk's header: directly after a successful `allocate`, the block ends where the room starts,
so it can be grown in place as long as the room lasts. -/
theorem C08_after_allocate {s0 s s' : St} {L : List Owned} (h : Reach s0 s L) {l new : Layout} (hl : l.Valid) {b : Slice}
    (hs : step s (.allocate l) = .ok (.block b, s')) (hn : new.Valid) (ha : new.align ≤ l.align) (hsz : l.size < new.size) :
    ∃ e, s'.room = some (b.addr + l.size, e) ∧ (b.addr + new.size ≤ e →
      ∃ s'', step s' (.resize b.addr l new) = .ok (.block ⟨b.addr, new.size⟩, s'') ∧ Quiet s' s'') := by
  have hr' := (C02_allocate h hl hs).1
  have hroom : ∃ e, s'.room = some (b.addr + b.len, e) ∧ b.len = l.size := by
    by_cases hq : s'.w.calls = s.w.calls
    · obtain ⟨pos, e, _, _, _, h1, _, h2⟩ := C19_bump h hl hs hq
      exact ⟨e, h2, h1⟩
    · obtain ⟨B, rest, _, _, _, _, h1, _, h2⟩ := C19_new_chunk h hl hs hq
      exact ⟨_, h2, h1⟩
  obtain ⟨e, h1, h2⟩ := hroom
  rw [h2] at h1
  refine ⟨e, h1, fun hfit => ?_⟩
  have hleg : Legal (Owned.of b l :: L) (.resize b.addr l new) :=
    .resize (b := Owned.of b l) List.mem_cons_self ⟨rfl, rfl, Nat.le_refl _, by simp only [Owned.of]; omega⟩ hn
  obtain ⟨s'', h3, h4, _⟩ := C08_grow_in_place hr' hleg h1 rfl ha hsz hfit
  exact ⟨s'', h3, h4⟩

example : ∃ s0 s L, Reach s0 s L ∧ Legal L (.resize 65680 ⟨10, 16⟩ ⟨300, 4⟩) ∧ s.room = some (65690, 66048) := by
  obtain ⟨s, L, r, s', h1, h2, h3, _, h5⟩ := of_demoAt (sizes := [512, 2048]) (m := 256)
    (ops := [.allocate ⟨100, 8⟩, .allocate ⟨10, 16⟩]) (op := .resize 65680 ⟨10, 16⟩ ⟨300, 4⟩)
    (f := fun s L r s' => s.room == some (65690, 66048)) (by decide) (by decide +kernel)
  simp only [beq_iff_eq] at h5
  exact ⟨_, s, L, h1, h2, h5⟩

/-! ### C13 -/

/-- C13: after a reset that kept the block `B`, as long as the sizes plus worst-case paddings of all calls made since do not
exceed the capacity of `B`, every call succeeds and nothing is asked of the underlying allocator: not in the calls made so
far (`tr`), and not in the next one (`op`), which does not fault either. -/
theorem C13_warm {s0 s s1 s2 : St} {L L2 : List Owned} (h : Reach s0 s L) {r1 : Resp} (hreset : step s .reset = .ok (r1, s1))
    {B : BaseBlk} (hB : openBlocks s1.w.log = [B]) {tr : List (Op × Resp)} (hrun : Run s1 [] tr s2 L2)
    (hnr : ∀ x ∈ tr, x.1.NoReset) {op : Op} (hl : Legal L2 op) (hn : op.NoReset) (hc : costOf tr + op.cost + 32 ≤ B.len) :
    (∀ x ∈ tr, x.2 ≠ .err) ∧ Quiet s1 s2 ∧ ∃ r s3, step s2 op = .ok (r, s3) ∧ r ≠ .err ∧ Quiet s2 s3 := by
  obtain ⟨cs, hI⟩ := h.inv
  have hr1 : r1 = .unit := by
    obtain ⟨s', h'⟩ := C10_reset_total h
    rw [h'] at hreset
    injection hreset with h1
    injection h1 with h1 h2
    exact h1.symm
  subst hr1
  obtain ⟨cs1, ⟨_, _, hcs1⟩, hI1⟩ := hI.step_ok .reset hreset .reset
  have hc1 : ∃ c, cs1 = [c] ∧ c.cursor = c.start + 32 := by
    rw [hI1.log.1] at hB
    subst hcs1
    cases cs with
    | nil => cases hB
    | cons c t => exact ⟨_, rfl, rfl⟩
  obtain ⟨c, rfl, hcur⟩ := hc1
  have hBlen : B.len = c.end_ - c.start := by
    rw [hI1.log.1] at hB
    simp only [List.map_cons, List.map_nil, List.cons.injEq, and_true] at hB
    rw [← hB]; rfl
  have hok := hI1.arena.ok c List.mem_cons_self
  have := hok.lo; have := hok.hi
  have key : ∀ {tr s2 L2}, Run s1 [] tr s2 L2 → (∀ x ∈ tr, x.1.NoReset) → costOf tr + 32 ≤ B.len →
      (∀ x ∈ tr, x.2 ≠ .err) ∧ Quiet s1 s2 ∧ ∃ c', Inv s0 s2 [c'] L2 ∧ c'.start = c.start ∧ c'.end_ = c.end_ ∧
        c'.cursor ≤ c.cursor + costOf tr := by
    intro tr s2 L2 hrun
    induction hrun with
    | nil => intro _ _; exact ⟨by simp, ⟨rfl, rfl, rfl⟩, c, hI1, rfl, rfl, by simp [costOf]⟩
    | @snoc tr s L op r s' L' hprev hl hs ha ih =>
      intro hnr hc
      simp only [costOf, List.map_append, List.map_cons, List.map_nil, List.sum_append, List.sum_cons, List.sum_nil,
        Nat.add_zero] at hc
      obtain ⟨i1, i2, c', i3, i4, i5, i6⟩ := ih (fun x hx => hnr x (List.mem_append_left _ hx)) (by unfold costOf; omega)
      unfold costOf at i6
      obtain ⟨r', s'', c'', w1, w2, w3, w4, w5, w6, w7⟩ :=
        i3.warm hl (hnr (op, r) (List.mem_append_right _ List.mem_cons_self)) (by omega)
      rw [hs] at w1
      injection w1 with w1
      injection w1 with e1 e2
      subst e1; subst e2
      refine ⟨?_, ⟨w3.1.trans i2.1, w3.2.1.trans i2.2.1, w3.2.2.trans i2.2.2⟩, c'', w4 _ ha, by omega, by omega, ?_⟩
      · intro x hx
        rcases List.mem_append.mp hx with hx | hx
        · exact i1 x hx
        · rw [List.mem_singleton] at hx; subst hx; exact w2
      · simp only [costOf, List.map_append, List.map_cons, List.map_nil, List.sum_append, List.sum_cons, List.sum_nil,
          Nat.add_zero]
        omega
  obtain ⟨k1, k2, c', k3, k4, k5, k6⟩ := key hrun hnr (by omega)
  obtain ⟨r', s'', c'', w1, w2, w3, _⟩ := k3.warm hl hn (by omega)
  exact ⟨k1, k2, r', s'', w1, w2, w3⟩

/-- Non-vacuity: a block of 2048 bytes is kept, 100 + 7 bytes are used, 1000 more are asked for. -/
example : ∃ s0 s L s1 B tr s2 L2, Reach s0 s L ∧ step s .reset = .ok (.unit, s1) ∧ openBlocks s1.w.log = [B] ∧
    Run s1 [] tr s2 L2 ∧ (∀ x ∈ tr, x.1.NoReset) ∧ Legal L2 (.allocate ⟨1000, 8⟩) ∧
    costOf tr + (Op.allocate ⟨1000, 8⟩).cost + 32 ≤ B.len ∧ tr ≠ [] := by
  obtain ⟨s, L, r, s1, h1, h2, h3, _, h5⟩ := of_demoAt (sizes := [512, 2048]) (m := 256)
    (ops := [.allocate ⟨100, 8⟩, .allocate ⟨900, 16⟩]) (op := .reset)
    (f := fun s L r s1 => r == .unit && openBlocks s1.w.log == [⟨131072, 2048, ⟨2048, 8⟩⟩] &&
      (execAll s1 [] [.allocate ⟨100, 8⟩]).isSome) (by decide) (by decide +kernel)
  simp only [Bool.and_eq_true, beq_iff_eq] at h5
  obtain ⟨⟨rfl, h6⟩, h7⟩ := h5
  obtain ⟨⟨rs, s2, L2⟩, he⟩ := Option.isSome_iff_exists.mp h7
  have hrun := execAll_sound he
  have hrs : rs ≠ [] := by
    unfold execAll at he
    split at he
    · cases he
    · split at he
      · cases he
      · simp only [Option.some.injEq, Prod.mk.injEq] at he
        rw [← he.1]; simp
  cases rs with
  | nil => exact absurd rfl hrs
  | cons r rs =>
    refine ⟨_, s, L, s1, _, _, s2, L2, h1, h3, h6, hrun, ?_, .allocate ⟨⟨3, rfl⟩, by decide⟩, ?_, by simp⟩
    · intro x hx
      simp only [List.zip_cons_cons, List.zip_nil_left, List.mem_singleton] at hx
      subst hx
      exact ⟨by simp, by simp⟩
    · simp [costOf, Op.cost]

/-! ### C18 -/

theorem need_le {w cs F m l} (hA : AInv w cs F) (hL : LogInv w.log cs) :
    need (rootCum cs) m l ≤ max m (totalLen (openBlocks w.log)) + max l.size 64 + l.align + 32 := by
  have hcum : ∀ c, rootCum cs = some c → c ≤ totalLen (openBlocks w.log) := by
    intro c hc
    rw [hL.1]
    cases cs with
    | nil => cases hc
    | cons d t =>
      simp only [rootCum, List.head?_cons, Option.map_some, Option.some.injEq] at hc
      have := hA.cum.1
      have h2 : ∀ t : List Chunk, (t.map Chunk.cap).sum ≤ totalLen (t.map Chunk.blk) := by
        intro t
        induction t with
        | nil => simp [totalLen]
        | cons e t ih => simp only [totalLen, List.map_cons, List.sum_cons, Chunk.cap, Chunk.blk] at *; omega
      have := h2 t
      simp only [totalLen, List.map_cons, List.sum_cons] at *
      omega
  unfold need
  cases hrc : rootCum cs with
  | none => dsimp only; split <;> omega
  | some c =>
    have := hcum c hrc
    dsimp only
    split <;> omega

theorem tooBig_facts {w cs F m l} (hA : AInv w cs F) (hL : LogInv w.log cs) (hreq : chunkReq (rootCum cs) m l = none) :
    USIZE ≤ max m (totalLen (openBlocks w.log)) + max l.size 64 + l.align + 32 + 16384 + 8 := by
  have hn := chunkReq_none hreq
  have := need_le (m := m) (l := l) hA hL
  omega

/-- C18: `allocate` answers `Err` only if the underlying allocator refused a request made in this very call, or if no request
was made because the chunk size computation left the range of `usize`. -/
theorem C18_fails_for_a_reason {s0 s s' : St} {L : List Owned} (h : Reach s0 s L) {l : Layout} (hl : l.Valid)
    (hs : step s (.allocate l) = .ok (.err, s')) :
    (∃ R, s'.w.log = .refused R :: s.w.log ∧ s.w.oracle s.w.calls = none ∧ s'.w.calls = s.w.calls + 1) ∨
    (s'.w = s.w ∧ USIZE ≤ max s.a.minChunk (totalLen (openBlocks s.w.log)) + max l.size 64 + l.align + 32 + 16384 + 8) := by
  obtain ⟨cs, hI⟩ := h.inv
  obtain ⟨cs', ⟨o, ho, hr⟩, _⟩ := hI.step_ok (.allocate hl) hs .allocErr
  cases o with
  | some sl => cases ho
  | none =>
    generalize hw' : s'.w = w' at hr
    cases hr with
    | slow hb hsl =>
      cases hsl with
      | refused R hreq ho => exact .inl ⟨_, rfl, ho, rfl⟩
      | tooBig hreq =>
        refine .inr ⟨rfl, ?_⟩
        exact tooBig_facts hI.arena hI.log hreq

/-- C18: while the current chunk has room for the layout, `allocate` succeeds without asking the underlying allocator. The last
hypothesis says that the room does not sit at the very end of the address space. -/
theorem C18_room_suffices {s0 s : St} {L : List Owned} (h : Reach s0 s L) {l : Layout} (hl : l.Valid) {pos e q : Nat}
    (hroom : s.room = some (pos, e)) (h1 : pos ≤ q) (h2 : q % l.align = 0) (h3 : q + l.size ≤ e)
    (h4 : pos + l.size + l.align ≤ USIZE) :
    ∃ b s', step s (.allocate l) = .ok (.block b, s') ∧ Quiet s s' ∧ b.addr ≤ q := by
  obtain ⟨cs, hI⟩ := h.inv
  rw [hI.room] at hroom
  cases cs with
  | nil => cases hroom
  | cons c t =>
    simp only [List.head?_cons, Option.map_some, Option.some.injEq, Prod.mk.injEq] at hroom
    obtain ⟨rfl, rfl⟩ := hroom
    have hb := bump_of_fit hl h1 h2 h3 h4
    rcases hI.step' (.allocate hl) with ⟨e, ⟨_, hnc⟩, _⟩ | ⟨r, s', cs', hst, ⟨o, ho, hr⟩, hi⟩
    · rw [hnc.1 c t rfl] at hb; cases hb
    · generalize hw' : s'.w = w' at hr
      cases hr with
      | fast c' t' a hcs hb' =>
        injection hcs with e1 e2
        subst e1; subst e2
        refine ⟨⟨a, l.size⟩, s', by rw [hst, ho]; rfl, by unfold Quiet; rw [hw']; exact ⟨rfl, rfl, rfl⟩, ?_⟩
        have hle := bump_le hl hb' h1 h2
        exact hle
      | slow hnf => rw [hnf c t rfl] at hb; cases hb

/-- C18: a call makes at most one request to the underlying allocator; apart from `reset` and `reset_final` it makes no other
call to it. -/
theorem C18_one_request {s0 s s' : St} {L : List Owned} (h : Reach s0 s L) {op : Op} (hl : Legal L op) {r : Resp}
    (hs : step s op = .ok (r, s')) :
    s'.w.calls ≤ s.w.calls + 1 ∧
    (op.NoReset → s'.w.log = s.w.log ∨ (∃ l b, s'.w.log = .alloc l b :: s.w.log) ∨ ∃ l, s'.w.log = .refused l :: s.w.log) := by
  obtain ⟨cs, hI⟩ := h.inv
  have key : ∀ {l o w1 cs1}, AllocRes s.w cs s.a.minChunk l o w1 cs1 → w1.calls ≤ s.w.calls + 1 ∧
      (w1.log = s.w.log ∨ (∃ l b, w1.log = .alloc l b :: s.w.log) ∨ ∃ l, w1.log = .refused l :: s.w.log) := by
    intro l o w1 cs1 hr
    cases hr with
    | fast => exact ⟨Nat.le_succ _, .inl rfl⟩
    | slow hb hsl =>
      cases hsl with
      | tooBig => exact ⟨Nat.le_succ _, .inl rfl⟩
      | refused => exact ⟨Nat.le_refl _, .inr (.inr ⟨_, rfl⟩)⟩
      | ok => exact ⟨Nat.le_refl _, .inr (.inl ⟨_, _, rfl⟩)⟩
  rcases hI.step hl with ⟨e, _, he⟩ | ⟨r1, s1, cs1, he, hr, _⟩
  · rw [he] at hs; cases hs
  rw [he] at hs
  injection hs with hs
  injection hs with e1 e2
  subst e1; subst e2
  cases op with
  | allocate l => obtain ⟨o, _, hr⟩ := hr; exact ⟨(key hr).1, fun _ => (key hr).2⟩
  | allocateZeroed l =>
    obtain ⟨o, w1, _, hr, hw⟩ := hr
    cases o <;> (simp only at hw; rw [hw]; exact ⟨(key hr).1, fun _ => (key hr).2⟩)
  | resize p old new =>
    obtain ⟨o, _, hr⟩ := hr
    generalize s1.w = w' at hr
    cases hr with
    | same => exact ⟨Nat.le_succ _, fun _ => .inl rfl⟩
    | grow => exact ⟨Nat.le_succ _, fun _ => .inl rfl⟩
    | move s w1 cs1 hn hgrow hr => exact ⟨(key hr).1, fun _ => (key hr).2⟩
    | fail w1 cs1 hn hgrow hr => exact ⟨(key hr).1, fun _ => (key hr).2⟩
  | growZeroed p old new =>
    obtain ⟨o, w1, _, hr, hw⟩ := hr
    cases o <;> (simp only at hw; rw [hw]; exact ⟨(key hr).1, fun _ => (key hr).2⟩)
  | deallocate => obtain ⟨_, hw, _⟩ := hr; rw [hw]; exact ⟨Nat.le_succ _, fun _ => .inl rfl⟩
  | reset =>
    obtain ⟨_, hw, _⟩ := hr
    refine ⟨?_, fun hn => absurd rfl hn.1⟩
    rw [hw]
    cases cs with
    | nil => exact Nat.le_succ _
    | cons c t => rw [show (resetWorld s.w (c :: t)).calls = _ from (freeAll_fields (rewound s.w c) t).2.1]; exact Nat.le_succ _
  | resetFinal =>
    obtain ⟨_, hw, _⟩ := hr
    refine ⟨?_, fun hn => absurd rfl hn.2⟩
    rw [hw, (freeAll_fields s.w cs).2.1]
    exact Nat.le_succ _
  | write => obtain ⟨_, hw, _⟩ := hr; rw [hw]; exact ⟨Nat.le_succ _, fun _ => .inl rfl⟩

/-- Non-vacuity of `C18_fails_for_a_reason`, first alternative (refusal with live blocks around). -/
example : ∃ s0 s L s', Reach s0 s L ∧ Layout.Valid ⟨900, 8⟩ ∧ step s (.allocate ⟨900, 8⟩) = .ok (.err, s') ∧ L ≠ [] :=
  let ⟨s, s', h1, _, h3, _⟩ := step_of_demo (sizes := [512]) (m := 256) (ops := [.allocate ⟨100, 8⟩])
    (op := .allocate ⟨900, 8⟩) (r := .err) (L := [⟨65568, 100, 100, 8⟩]) (by decide) (by decide +kernel)
  ⟨_, s, _, s', h1, ⟨⟨3, rfl⟩, by decide⟩, h3, by decide⟩

/-- Non-vacuity of `C18_room_suffices`. -/
example : ∃ s0 s L pos e q, Reach s0 s L ∧ s.room = some (pos, e) ∧ pos ≤ q ∧ q % 64 = 0 ∧ q + 10 ≤ e ∧ pos < q := by
  obtain ⟨s, L, r, s', h1, h2, h3, _, h5⟩ := of_demoAt (sizes := [512, 2048]) (m := 256)
    (ops := [.allocate ⟨100, 8⟩]) (op := .allocate ⟨10, 64⟩) (f := fun s _ _ _ => s.room == some (65668, 66048))
    (by decide) (by decide +kernel)
  simp only [beq_iff_eq] at h5
  exact ⟨_, s, L, _, _, 65728, h1, h5, by decide, by decide, by decide, by decide⟩

end Blink
