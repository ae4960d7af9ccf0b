import Verif.Props.Room
/-
  Property theorems about the sizes and the number of chunks: C14, C15, C16, C20.
-/
namespace Blink

/-! ### C15 -/

/-- Capacity of blocks: their length without the 32-byte header. -/
def capacity (bs : List BaseBlk) : Nat := (bs.map (fun b => b.len - 32)).sum

theorem capacity_blk (cs : List Chunk) : capacity (cs.map Chunk.blk) = (cs.map Chunk.cap).sum := by
  induction cs with
  | nil => rfl
  | cons c t ih =>
    simp only [capacity, List.map_cons, List.sum_cons] at *
    simp only [ih, Chunk.blk, Chunk.cap]
    omega

/-- C15 in full, as documented: when the current chunk is exhausted the new chunk is larger than it. -/
def C15_full : Prop :=
  ∀ (s0 s s' : St) (L : List Owned) (l : Layout) (r : Resp), Reach s0 s L → l.Valid →
    step s (.allocate l) = .ok (r, s') → ∀ B B' rest, openBlocks s.w.log = B :: rest →
    openBlocks s'.w.log = B' :: B :: rest → B.len < B'.len

/-- The code does not do that: with default settings, after one allocation of 10000 bytes (16384-byte chunk) an allocation of
6400 bytes gets a new chunk of 8192 bytes, although the underlying allocator gives exactly what is asked for. -/
theorem C15_full_false : ¬ C15_full := by
  intro hf
  obtain ⟨s, L, r, s', h1, h2, h3, _, h5⟩ := of_demoAt (sizes := [16384, 8192]) (m := 256) (ops := [.allocate ⟨10000, 8⟩])
    (op := .allocate ⟨6400, 8⟩) (f := fun s _ _ s' => openBlocks s.w.log == [⟨65536, 16384, ⟨16384, 8⟩⟩] &&
      openBlocks s'.w.log == [⟨131072, 8192, ⟨8192, 8⟩⟩, ⟨65536, 16384, ⟨16384, 8⟩⟩]) (by decide) (by decide +kernel)
  simp only [Bool.and_eq_true, beq_iff_eq] at h5
  have := hf _ s s' L ⟨6400, 8⟩ r h1 ⟨⟨3, rfl⟩, by decide⟩ h3 _ _ _ h5.1 h5.2
  simp at this

/-- C15, what holds: the capacity of a new chunk is at least the minimal chunk size plus 64 bytes, and at least 64 bytes more
than the capacity of all other chunks together *except the current one*, and beyond that has room for the requested size.
Missing: the current chunk is not taken into account, so the new one can be smaller than it. -/
theorem C15_new_chunk_partial {s0 s s' : St} {L : List Owned} (h : Reach s0 s L) {l : Layout} (hl : l.Valid) {r : Resp}
    (hs : step s (.allocate l) = .ok (r, s')) {B B' : BaseBlk} {rest : List BaseBlk}
    (h1 : openBlocks s.w.log = B :: rest) (h2 : openBlocks s'.w.log = B' :: B :: rest) :
    max s.a.minChunk (capacity rest) + max l.size 64 + 32 ≤ B'.len := by
  obtain ⟨cs, hI⟩ := h.inv
  have key : ∀ {o cs'}, AllocRes s.w cs s.a.minChunk l o s'.w cs' → openBlocks s'.w.log = cs'.map Chunk.blk →
      max s.a.minChunk (capacity rest) + max l.size 64 + 32 ≤ B'.len := by
    intro o cs' hr hlog
    have hlen : cs'.length = cs.length + 1 := by
      have e1 := congrArg List.length (hlog.symm.trans h2)
      have e2 := congrArg List.length (hI.log.1.symm.trans h1)
      simp only [List.length_map, List.length_cons] at e1 e2
      omega
    rw [hlog] at h2
    rw [hI.log.1] at h1
    generalize s'.w = w' at hr
    cases hr with
    | fast c t a hcs hb => subst hcs; simp only [List.length_cons] at hlen; omega
    | slow hb hsl =>
      cases hsl with
      | tooBig => omega
      | refused => omega
      | ok R sl m' h' ho hf hb' hm hu =>
        simp only [List.map_cons, List.cons.injEq] at h2
        obtain ⟨rfl, hrest⟩ := h2
        cases cs with
        | nil => cases h1
        | cons c t =>
          simp only [List.map_cons, List.cons.injEq] at h1
          obtain ⟨rfl, rfl⟩ := h1
          have hreq := chunkReq_facts h'
          simp only [freshOk, Bool.and_eq_true, decide_eq_true_eq] at hf
          have hlen := hf.1.1.1.2
          have hcum := hI.arena.cum.1
          rw [capacity_blk]
          simp only [need, rootCum, List.head?_cons, Option.map_some] at hreq
          simp only [Chunk.blk, newChunk]
          rw [← hcum]
          omega
  rcases hI.step (.allocate hl) with ⟨e, _, he⟩ | ⟨r1, s1, cs1, he, ⟨o, ho, hr⟩, hi⟩
  · rw [he] at hs; cases hs
  rw [he] at hs
  injection hs with hs
  injection hs with e1 e2
  subst e1; subst e2
  cases o with
  | none => exact key hr (by have := hi L (by rw [ho]; exact .allocErr); exact this.log.1)
  | some sl => exact key hr (by have := hi _ (by rw [ho]; exact .allocOk); exact this.log.1)

/-- Non-vacuity: the third chunk of a history. -/
example : ∃ s0 s L s' r B B' rest, Reach s0 s L ∧ Layout.Valid ⟨5000, 8⟩ ∧ step s (.allocate ⟨5000, 8⟩) = .ok (r, s') ∧
    openBlocks s.w.log = B :: rest ∧ openBlocks s'.w.log = B' :: B :: rest ∧ rest.length = 1 := by
  obtain ⟨s, L, r, s', h1, h2, h3, _, h5⟩ := of_demoAt (sizes := [512, 2048, 8192]) (m := 256)
    (ops := [.allocate ⟨400, 8⟩, .allocate ⟨900, 8⟩])
    (op := .allocate ⟨5000, 8⟩) (f := fun s _ _ s' =>
      openBlocks s.w.log == [⟨131072, 2048, ⟨2048, 8⟩⟩, ⟨65536, 512, ⟨512, 8⟩⟩] &&
      openBlocks s'.w.log == [⟨196608, 8192, ⟨8192, 8⟩⟩, ⟨131072, 2048, ⟨2048, 8⟩⟩, ⟨65536, 512, ⟨512, 8⟩⟩])
    (by decide) (by decide +kernel)
  simp only [Bool.and_eq_true, beq_iff_eq] at h5
  exact ⟨_, s, L, s', r, _, _, _, h1, ⟨⟨3, rfl⟩, by decide⟩, h3, h5.1, h5.2, rfl⟩

/-- Upper bounds on what the rounding of chunk sizes adds. -/
theorem req_tight {rc : Option Nat} {m R : Nat} {l : Layout} (h : chunkReq rc m l = some R) :
    R < need rc m l + 16392 ∧ (need rc m l < 16384 → R < 2 * need rc m l + 8) := by
  obtain ⟨h1, _, _, h4, h5⟩ := chunkReq_facts h
  have h32 : 32 ≤ need rc m l := by unfold need; omega
  unfold roundChunk at h4
  split at h4
  · obtain ⟨k, a1, a2, a3⟩ := nextPow2_spec h5
    have h14 : 2 ^ k ≤ 2 ^ 14 := Nat.pow_le_pow_right (show 0 < 2 by decide) (a3 14 (by omega))
    have h2 : 2 ^ k < 2 * need rc m l := by
      cases k with
      | zero => omega
      | succ k =>
        have : ¬ need rc m l ≤ 2 ^ k := fun hc => by have := a3 k hc; omega
        rw [Nat.pow_succ]
        omega
    omega
  · split at h4
    · have := (roundUp_facts (need rc m l) (show 0 < 16384 by decide))
      omega
    · omega

/-- C15, exact size of a request for a new chunk, whatever call makes it: `n` is the minimal chunk size or the size asked for if
there is no chunk yet, otherwise the minimal chunk size or the capacity of all chunks but the current one, plus the size asked
for (at least 64). The request is `n` plus header and alignment, rounded up to a power of two below 16 KiB and to a multiple of
16 KiB above. Missing: as in `C15_new_chunk_partial`. -/
theorem C15_request_size_partial {s0 s s' : St} {L : List Owned} (h : Reach s0 s L) {op : Op} (hl : Legal L op) {l R : Layout}
    (hop : op.layout? = some l) {r : Resp} (hs : step s op = .ok (r, s'))
    (hev : s'.w.log = .refused R :: s.w.log ∨ ∃ b, s'.w.log = .alloc R b :: s.w.log) {n : Nat}
    (h1 : openBlocks s.w.log = [] → n = max s.a.minChunk l.size)
    (h2 : ∀ B rest, openBlocks s.w.log = B :: rest → n = max s.a.minChunk (capacity rest) + max l.size 64) :
    n + 32 ≤ R.size ∧ R.size < n + l.align + 32 + 16392 ∧ (n + l.align + 32 < 16384 → R.size < 2 * (n + l.align + 32) + 8) := by
  obtain ⟨cs, hI⟩ := h.inv
  have hn : n + 32 ≤ need (rootCum cs) s.a.minChunk l ∧ need (rootCum cs) s.a.minChunk l ≤ n + l.align + 32 := by
    rw [hI.log.1] at h1 h2
    cases cs with
    | nil =>
      have := h1 rfl
      simp only [need, rootCum, List.head?_nil, Option.map_none]
      split <;> omega
    | cons c t =>
      have := h2 _ _ rfl
      have hcum := hI.arena.cum.1
      rw [capacity_blk] at this
      simp only [need, rootCum, List.head?_cons, Option.map_some]
      split <;> omega
  have bound : ∀ {k}, chunkReq (rootCum cs) s.a.minChunk l = some k → R = ⟨k, 8⟩ →
      n + 32 ≤ R.size ∧ R.size < n + l.align + 32 + 16392 ∧
        (n + l.align + 32 < 16384 → R.size < 2 * (n + l.align + 32) + 8) := by
    intro k hk hR
    subst hR
    have a := chunkReq_facts hk
    have b := req_tight hk
    exact ⟨by dsimp only; omega, by dsimp only; omega, fun _ => by dsimp only; omega⟩
  have same : s'.w.log ≠ s.w.log := by
    rcases hev with e | ⟨b, e⟩ <;> rw [e] <;> exact fun hc => List.ne_cons_self hc.symm
  have key : ∀ {o w1 cs1}, AllocRes s.w cs s.a.minChunk l o w1 cs1 → w1.log = s'.w.log →
      n + 32 ≤ R.size ∧ R.size < n + l.align + 32 + 16392 ∧
        (n + l.align + 32 < 16384 → R.size < 2 * (n + l.align + 32) + 8) := by
    intro o w1 cs1 hr hw
    cases hr with
    | fast => exact absurd hw.symm same
    | slow hb hsl =>
      cases hsl with
      | tooBig => exact absurd hw.symm same
      | refused k hk =>
        refine bound hk ?_
        rcases hev with e | ⟨b, e⟩ <;> rw [e] at hw <;> injection hw with hw
        · injection hw with hw; exact hw.symm
        · cases hw
      | ok k sl m' hk =>
        refine bound hk ?_
        rcases hev with e | ⟨b, e⟩ <;> rw [e] at hw <;> injection hw with hw
        · cases hw
        · injection hw with hw; exact hw.symm
  rcases hI.step hl with ⟨e, _, he⟩ | ⟨r1, s1, cs1, he, hr, _⟩
  · rw [he] at hs; cases hs
  rw [he] at hs
  injection hs with hs
  injection hs with e1 e2
  subst e1; subst e2
  cases op with
  | allocate l' => injection hop with hop; subst hop; obtain ⟨o, _, hr⟩ := hr; exact key hr rfl
  | allocateZeroed l' =>
    injection hop with hop; subst hop
    obtain ⟨o, w1, _, hr, hw⟩ := hr
    cases o <;> (simp only at hw; exact key hr (by rw [hw]))
  | resize p old new =>
    injection hop with hop; subst hop
    obtain ⟨o, _, hr⟩ := hr
    generalize hw : s1.w = w' at hr
    cases hr with
    | same => exact absurd (by rw [hw]) same
    | grow => exact absurd (by rw [hw]; rfl) same
    | move s w1 cs1 hn hgrow hr => exact key hr (by rw [hw])
    | fail w1 cs1 hn hgrow hr => exact key hr (by rw [hw])
  | growZeroed p old new =>
    injection hop with hop; subst hop
    obtain ⟨o, w1, _, hr, hw⟩ := hr
    cases o <;> (simp only at hw; exact key hr (by rw [hw]))
  | _ => cases hop

/-- Non-vacuity: a resize makes the third chunk of a history. -/
example : ∃ s0 s L s' r R b B rest, Reach s0 s L ∧ Legal L (.resize 131104 ⟨900, 8⟩ ⟨5000, 8⟩) ∧
    step s (.resize 131104 ⟨900, 8⟩ ⟨5000, 8⟩) = .ok (r, s') ∧ s'.w.log = .alloc R b :: s.w.log ∧
    openBlocks s.w.log = B :: rest ∧ rest.length = 1 := by
  obtain ⟨s, L, r, s', h1, h2, h3, _, h5⟩ := of_demoAt (sizes := [512, 2048, 8192]) (m := 256)
    (ops := [.allocate ⟨400, 8⟩, .allocate ⟨900, 8⟩])
    (op := .resize 131104 ⟨900, 8⟩ ⟨5000, 8⟩) (f := fun s _ _ s' =>
      openBlocks s.w.log == [⟨131072, 2048, ⟨2048, 8⟩⟩, ⟨65536, 512, ⟨512, 8⟩⟩] &&
      decide (s'.w.log = .alloc ⟨8192, 8⟩ ⟨196608, 8192⟩ :: s.w.log))
    (by decide) (by decide +kernel)
  simp only [Bool.and_eq_true, beq_iff_eq, decide_eq_true_eq] at h5
  exact ⟨_, s, L, s', r, _, _, _, _, h1, h2, h3, h5.2, h5.1, rfl⟩

/-! ### C16 -/

/-- C16 in full: every layout passed to the underlying allocator is valid. -/
def C16_full : Prop :=
  ∀ (s0 s : St) (L : List Owned), Reach s0 s L → ∀ l, (.refused l ∈ s.w.log ∨ ∃ b, .alloc l b ∈ s.w.log) → l.Valid

/-- The code does not guarantee that: a valid request near `isize::MAX` makes it build a layout beyond `isize::MAX` with
`Layout::from_size_align_unchecked`, with default settings. -/
theorem C16_full_false : ¬ C16_full := by
  intro hf
  obtain ⟨s, L, r, s', h1, h2, h3, ⟨L', h4⟩, h5⟩ := of_demoAt (sizes := []) (m := 256) (ops := [])
    (op := .allocate ⟨9223372036854775800, 8⟩)
    (f := fun _ _ _ s' => s'.w.log == [.refused ⟨9223372036854792192, 8⟩]) (by decide) (by decide +kernel)
  simp only [beq_iff_eq] at h5
  obtain ⟨h0, tr, hrun⟩ := h1
  have := hf _ s' L' ⟨h0, _, hrun.snoc h2 h3 h4⟩ ⟨9223372036854792192, 8⟩ (.inl (by rw [h5]; exact List.mem_cons_self))
  have := this.2
  simp at this

/-- C16, what holds: every request has alignment 8 and a size that is a multiple of 8, and it is a valid layout provided that
the minimal chunk size, the addresses and all requested layouts stay below 2^61. Missing: larger requests and chunk sizes (see
`C16_full_false`). -/
theorem C16_valid_requests_partial {s0 s : St} {L : List Owned} (h0 : Start s0) {tr : List (Op × Resp)} (hr : Run s0 [] tr s L)
    {l : Layout} (hl : .refused l ∈ s.w.log ∨ ∃ b, .alloc l b ∈ s.w.log) :
    l.align = 8 ∧ l.size % 8 = 0 ∧ 32 ≤ l.size ∧
    (s0.a.minChunk ≤ 2 ^ 61 → s0.w.top ≤ 2 ^ 61 → (∀ x ∈ tr, ∀ k, x.1.layout? = some k → k.size + k.align ≤ 2 ^ 61) →
      l.Valid) := by
  obtain ⟨cs, hI, hP⟩ := hr.inv_ext h0 (fun w cs tr => ∀ l, (.refused l ∈ w.log ∨ ∃ b, .alloc l b ∈ w.log) →
      l.align = 8 ∧ l.size % 8 = 0 ∧ 32 ≤ l.size ∧
      (s0.a.minChunk ≤ 2 ^ 61 → s0.w.top ≤ 2 ^ 61 → (∀ x ∈ tr, ∀ k, x.1.layout? = some k → k.size + k.align ≤ 2 ^ 61) →
        l.Valid)) (by intro l hl; rw [h0.log] at hl; simp at hl) (by
    intro tr s L cs op r s' L' cs' _ hI _ _ hres hI' ih l hl
    have key : ∀ ev, ev ∈ s'.w.log → (ev = .refused l ∨ ∃ b, ev = .alloc l b) →
        l.align = 8 ∧ l.size % 8 = 0 ∧ 32 ≤ l.size ∧ (s0.a.minChunk ≤ 2 ^ 61 → s0.w.top ≤ 2 ^ 61 →
          (∀ x ∈ tr ++ [(op, r)], ∀ k, x.1.layout? = some k → k.size + k.align ≤ 2 ^ 61) → l.Valid) := by
      intro ev hev hform
      rcases hres.events hev with h1 | ⟨_, a, k, rfl⟩ | ⟨k, R, hk, hR, h2⟩
      · have := ih l (by rcases hform with rfl | ⟨b, rfl⟩; exact .inl h1; exact .inr ⟨b, h1⟩)
        exact ⟨this.1, this.2.1, this.2.2.1, fun a b c => this.2.2.2 a b fun x hx => c x (List.mem_append_left _ hx)⟩
      · simp at hform
      · have hlR : l = ⟨R, 8⟩ := by
          rcases h2 with rfl | ⟨b', rfl⟩ <;> rcases hform with h | ⟨b, h⟩ <;> cases h <;> rfl
        subst hlR
        have hf := chunkReq_facts hR
        have hns := need_size (rootCum cs) s.a.minChunk k
        refine ⟨rfl, hf.2.1, by simp only; omega, fun ha hb hc => ⟨⟨3, rfl⟩, ?_⟩⟩
        have hk' := hc (op, r) (List.mem_append_right _ List.mem_cons_self) k hk
        have hm := hI.min
        have ht := hI.top
        have hrc := roundChunk_le (need (rootCum cs) s.a.minChunk k)
        simp only
        have hn : need (rootCum cs) s.a.minChunk k ≤ 2 ^ 61 + 2 ^ 61 + 2 ^ 61 + 64 + 32 := by
          unfold need
          cases hrc : rootCum cs with
          | none => simp only; split <;> omega
          | some c =>
            have := rootCum_le hI.arena hrc
            simp only; split <;> omega
        omega
    rcases hl with hl | ⟨b, hl⟩
    · exact key _ hl (.inl rfl)
    · exact key _ hl (.inr ⟨b, rfl⟩))
  exact hP l hl

/-- Non-vacuity: a grant and a refusal in the log. -/
example : ∃ s0 s L tr, Start s0 ∧ Run s0 [] tr s L ∧ .refused ⟨1024, 8⟩ ∈ s.w.log ∧ .alloc ⟨512, 8⟩ ⟨65536, 512⟩ ∈ s.w.log := by
  obtain ⟨s, L, r, s', ⟨h0, tr, h1⟩, h2, h3, ⟨L', h4⟩, h5⟩ := of_demoAt (sizes := [512]) (m := 256)
    (ops := [.allocate ⟨300, 8⟩]) (op := .allocate ⟨700, 8⟩)
    (f := fun _ _ _ s' => s'.w.log == [.refused ⟨1024, 8⟩, .alloc ⟨512, 8⟩ ⟨65536, 512⟩]) (by decide) (by decide +kernel)
  simp only [beq_iff_eq] at h5
  exact ⟨_, s', L', _, h0, h1.snoc h2 h3 h4, by rw [h5]; simp, by rw [h5]; simp⟩

/-! ### C20 -/

/-- Each chunk but the oldest is larger than all chunks older than its predecessor together. -/
def Grown : List Chunk → Prop
  | c :: d :: t => (t.map Chunk.cap).sum + 64 ≤ c.cap ∧ Grown (d :: t)
  | _ => True

theorem Grown.fib {cs : List Chunk} (h : Grown cs) : 64 * fib (cs.length + 1) ≤ (cs.map Chunk.cap).sum + 64 := by
  match cs, h with
  | [], _ => simp [Blink.fib]
  | [c], _ => simp [Blink.fib]
  | c :: d :: t, h =>
    have h1 := Grown.fib h.2
    have h2 : Grown t := by
      cases t with
      | nil => trivial
      | cons e t => exact h.2.2
    have h3 := Grown.fib h2
    have := h.1
    simp only [List.length_cons, List.map_cons, List.sum_cons, Blink.fib] at *
    omega
termination_by cs.length

theorem Grown.cursor {c : Chunk} {t : List Chunk} {n : Nat} (h : Grown (c :: t)) : Grown ({ c with cursor := n } :: t) := by
  cases t with
  | nil => trivial
  | cons d t => exact h

theorem AllocRes.grown {w cs F m l o w' cs'} (h : AInv w cs F) (hr : AllocRes w cs m l o w' cs') (hg : Grown cs) :
    Grown cs' := by
  cases hr with
  | fast c t a hcs hb => subst hcs; exact hg.cursor
  | slow hb hs =>
    cases hs with
    | tooBig => exact hg
    | refused => exact hg
    | ok R sl m' h' ho hf hb' hm hu =>
      cases cs with
      | nil => trivial
      | cons c t =>
        refine ⟨?_, hg⟩
        have hreq := chunkReq_facts h'
        simp only [freshOk, Bool.and_eq_true, decide_eq_true_eq] at hf
        have hlen := hf.1.1.1.2
        have hcum := h.cum.1
        simp only [need, rootCum, List.head?_cons, Option.map_some] at hreq
        simp only [Chunk.cap, newChunk] at *
        omega

theorem OpRes.grown {w cs F m op r w' cs'} (h : AInv w cs F) (hr : OpRes w cs m op r w' cs') (hg : Grown cs) :
    Grown cs' := by
  cases op with
  | allocate l => obtain ⟨o, _, hr⟩ := hr; exact hr.grown h hg
  | allocateZeroed l => obtain ⟨o, w1, _, hr, _⟩ := hr; exact hr.grown h hg
  | resize p old new =>
    obtain ⟨o, _, hr⟩ := hr
    cases hr with
    | same => exact hg
    | grow c t hcs => subst hcs; exact hg.cursor
    | move s w1 cs1 hn hg' hr => exact hr.grown h hg
    | fail w1 cs1 hn hg' hr => exact hr.grown h hg
  | growZeroed p old new => obtain ⟨o, w1, _, hr, _⟩ := hr; exact hr.grown h hg
  | deallocate => obtain ⟨_, _, rfl⟩ := hr; exact hg
  | reset => obtain ⟨_, _, rfl⟩ := hr; cases cs <;> trivial
  | resetFinal => obtain ⟨_, _, rfl⟩ := hr; trivial
  | write => obtain ⟨_, _, rfl⟩ := hr; exact hg

/-- C20, capacity: at any time, if the allocator holds `k` blocks, their total capacity is at least `64 * (fib (k + 1) - 1)`. -/
theorem C20_capacity_fib {s0 s : St} {L : List Owned} (h : Reach s0 s L) :
    64 * fib ((openBlocks s.w.log).length + 1) ≤ capacity (openBlocks s.w.log) + 64 := by
  obtain ⟨h0, tr, hr⟩ := h
  obtain ⟨cs, hI, hP⟩ := hr.inv_ext h0 (fun _ cs _ => Grown cs) trivial (fun _ hI _ _ hres _ ih => hres.grown hI.arena ih)
  rw [hI.log.1, capacity_blk, List.length_map]
  exact hP.fib

/-- Space used in a chunk and space left in it. -/
def Chunk.used (c : Chunk) : Nat := c.cursor - (c.start + 32)
def Chunk.left (c : Chunk) : Nat := c.end_ - c.cursor

theorem bump_none_left {c : Chunk} {l : Layout} (hl : l.Valid) (hc : ChunkOK c) (he : c.end_ < USIZE)
    (h : bump c.cursor c.end_ l = none) : c.left ≤ l.size + l.align - 1 := by
  obtain ⟨k, _, hk, hpos, _⟩ := hl.facts
  have := hc.hi
  unfold Chunk.left
  apply Decidable.byContradiction
  intro hcon
  obtain ⟨a, ha, _⟩ := bump_of_cost (pos := c.cursor) (e := c.end_) hl (by omega) he
  rw [h] at ha
  cases ha

/-- Used space, and left-over space in all chunks but the newest, are paid for by the requests. -/
def Paid (cs : List Chunk) (n : Nat) : Prop :=
  (cs.map Chunk.used).sum ≤ n ∧ (cs.tail.map Chunk.left).sum ≤ n

theorem AllocRes.paid {w cs F m l o w' cs'} (h : AInv w cs F) (hl : l.Valid) (hr : AllocRes w cs m l o w' cs') {n : Nat}
    (hp : Paid cs n) : Paid cs' (n + (l.size + l.align - 1)) := by
  obtain ⟨k, _, hk, hpos, _⟩ := hl.facts
  obtain ⟨p1, p2⟩ := hp
  cases hr with
  | fast c t a hcs hb =>
    subst hcs
    have hbf := bump_facts hl hb
    have := (h.ok c List.mem_cons_self).lo
    refine ⟨?_, ?_⟩
    · simp only [List.map_cons, List.sum_cons, Chunk.used] at *
      omega
    · simp only [List.tail_cons] at *
      omega
  | slow hb hs =>
    cases hs with
    | tooBig => exact ⟨by omega, by omega⟩
    | refused => exact ⟨by omega, by omega⟩
    | ok R sl m' h' ho hf hb' hm hu =>
      have hbf := bump_facts hl hb'
      refine ⟨?_, ?_⟩
      · simp only [List.map_cons, List.sum_cons, Chunk.used, newChunk] at *
        omega
      · cases cs with
        | nil => simp
        | cons c t =>
          have := bump_none_left hl (h.ok c List.mem_cons_self) (h.chunk_rng List.mem_cons_self) (hb c t rfl)
          simp only [List.tail_cons, List.map_cons, List.sum_cons] at *
          omega

theorem Paid.mono {cs : List Chunk} {n n' : Nat} (h : Paid cs n) (hn : n ≤ n') : Paid cs n' :=
  ⟨Nat.le_trans h.1 hn, Nat.le_trans h.2 hn⟩

theorem OpRes.paid {w cs F m op r w' cs' L} (h : AInv w cs F) (hleg : Legal L op) (hr : OpRes w cs m op r w' cs')
    (hno : op.NoReset) {n : Nat} (hp : Paid cs n) : Paid cs' (n + op.cost) := by
  cases hleg with
  | allocate hl => obtain ⟨o, _, hr⟩ := hr; exact hr.paid h hl hp
  | allocateZeroed hl => obtain ⟨o, w1, _, hr, _⟩ := hr; exact hr.paid h hl hp
  | resize _ _ hl =>
    obtain ⟨o, _, hr⟩ := hr
    cases hr with
    | same => exact hp.mono (by omega)
    | grow c t hcs ha hs htip hfit =>
      subst hcs
      obtain ⟨k, _, hk, hpos, _⟩ := hl.facts
      have := (h.ok c List.mem_cons_self).lo
      obtain ⟨p1, p2⟩ := hp
      refine ⟨?_, ?_⟩
      · simp only [List.map_cons, List.sum_cons, Chunk.used, Op.cost] at *
        omega
      · simp only [List.tail_cons] at *
        omega
    | move s w1 cs1 hn hg' hr => exact hr.paid h hl hp
    | fail w1 cs1 hn hg' hr => exact hr.paid h hl hp
  | growZeroed _ _ hl _ => obtain ⟨o, w1, _, hr, _⟩ := hr; exact hr.paid h hl hp
  | deallocate => obtain ⟨_, _, rfl⟩ := hr; exact hp.mono (by omega)
  | reset => exact absurd rfl hno.1
  | resetFinal => exact absurd rfl hno.2
  | write => obtain ⟨_, _, rfl⟩ := hr; exact hp.mono (by omega)

theorem fib_pow (j : Nat) : 2 ^ j ≤ fib (2 * j + 1) ∧ 2 ^ j ≤ fib (2 * j + 2) := by
  induction j with
  | zero => decide
  | succ j ih =>
    have e1 : fib (2 * (j + 1) + 1) = fib (2 * j + 1) + fib (2 * j + 2) := rfl
    have e2 : fib (2 * (j + 1) + 2) = fib (2 * j + 2) + fib (2 * (j + 1) + 1) := rfl
    have := Nat.pow_succ 2 j
    omega

theorem grants_open {log : List BaseEvent} (h : ∀ a l, .dealloc a l ∉ log) : grants log = (openBlocks log).length := by
  induction log with
  | nil => rfl
  | cons e t ih =>
    have ih := ih (fun a l hc => h a l (List.mem_cons_of_mem _ hc))
    cases e with
    | alloc l s => simp [grants, openBlocks, ih]
    | refused l => simp [grants, openBlocks, ih]
    | dealloc a l => exact absurd List.mem_cons_self (h a l)

/-- The part of C20 about the underlying allocator before taking logarithms: `k` granted requests without reset imply
that the callers asked for at least `32 * (fib k - 1)` bytes, padding included. -/
theorem C20_requests_fib {s0 s : St} {L : List Owned} (h0 : Start s0) {tr : List (Op × Resp)} (hr : Run s0 [] tr s L)
    (hno : ∀ x ∈ tr, x.1.NoReset) : 64 * fib (grants s.w.log) ≤ 2 * costOf tr + 64 := by
  obtain ⟨cs, hI, hP⟩ := hr.inv_ext h0 (fun w cs tr => (∀ x ∈ tr, x.1.NoReset) →
      Grown cs ∧ Paid cs (costOf tr) ∧ ∀ a l, .dealloc a l ∉ w.log)
    (by intro _; exact ⟨trivial, ⟨by simp, by simp⟩, by rw [h0.log]; simp⟩)
    (by
      intro tr s L cs op r s' L' cs' _ hI hleg _ hres hI' ih hno
      obtain ⟨i1, i2, i3⟩ := ih (fun x hx => hno x (List.mem_append_left _ hx))
      have hn := hno (op, r) (List.mem_append_right _ List.mem_cons_self)
      refine ⟨hres.grown hI.arena i1, ?_, ?_⟩
      · have := hres.paid hI.arena hleg hn i2
        simpa [costOf] using this
      · intro a l hc
        rcases hres.events hc with h1 | ⟨h1, _⟩ | ⟨k, R, _, _, h1⟩
        · exact i3 a l h1
        · exact h1 hn
        · rcases h1 with h1 | ⟨b, h1⟩ <;> cases h1)
  obtain ⟨i1, i2, i3⟩ := hP hno
  rw [grants_open i3, hI.log.1, List.length_map]
  cases cs with
  | nil => simp [fib]
  | cons c t =>
    have hg : Grown t := by
      cases t with
      | nil => trivial
      | cons d t => exact i1.2
    have h1 := hg.fib
    have h2 : ∀ t : List Chunk, (∀ c ∈ t, ChunkOK c) →
        (t.map Chunk.cap).sum = (t.map Chunk.used).sum + (t.map Chunk.left).sum := by
      intro t
      induction t with
      | nil => simp
      | cons d t ih =>
        intro hok
        have := ih (fun c hc => hok c (List.mem_cons_of_mem _ hc))
        have hd := hok d List.mem_cons_self
        have := hd.lo; have := hd.hi
        simp only [List.map_cons, List.sum_cons, Chunk.cap, Chunk.used, Chunk.left] at *
        omega
    have h3 := h2 t (fun d hd => hI.arena.ok d (List.mem_cons_of_mem _ hd))
    obtain ⟨p1, p2⟩ := i2
    simp only [List.map_cons, List.sum_cons, List.tail_cons, List.length_cons] at *
    omega

/-- C20: serving requests for `n` bytes in total (padding included) without reset takes at most `2 * log2 (n / 32 + 1) + 2`
granted requests to the underlying allocator, whatever lengths it returns. -/
theorem C20_logarithmic {s0 s : St} {L : List Owned} (h0 : Start s0) {tr : List (Op × Resp)} (hr : Run s0 [] tr s L)
    (hno : ∀ x ∈ tr, x.1.NoReset) : grants s.w.log ≤ 2 * Nat.log2 (costOf tr / 32 + 1) + 2 := by
  have h1 := C20_requests_fib h0 hr hno
  generalize hk : grants s.w.log = k at *
  by_cases hk0 : k = 0
  · omega
  have h2 : 2 ^ ((k - 1) / 2) ≤ fib k := by
    have h := fib_pow ((k - 1) / 2)
    have : k = 2 * ((k - 1) / 2) + 1 ∨ k = 2 * ((k - 1) / 2) + 2 := by omega
    rcases this with h' | h'
    · have := h.1; rw [← h'] at this; exact this
    · have := h.2; rw [← h'] at this; exact this
  have h3 : 2 ^ ((k - 1) / 2) ≤ costOf tr / 32 + 1 := by omega
  have h4 : (k - 1) / 2 ≤ Nat.log2 (costOf tr / 32 + 1) := (Nat.le_log2 (by omega)).mpr h3
  omega

/-- Non-vacuity: three granted requests in a reset-free history. -/
example : ∃ s0 s L tr, Start s0 ∧ Run s0 [] tr s L ∧ (∀ x ∈ tr, x.1.NoReset) ∧ grants s.w.log = 3 := by
  have hx : (execAll (demoStart [512, 2048, 8192]) [] [.allocate ⟨400, 8⟩, .allocate ⟨900, 8⟩, .allocate ⟨5000, 8⟩]).any
      (fun x => grants x.2.1.w.log == 3 && x.1.length == 3) = true := by decide +kernel
  cases he : execAll (demoStart [512, 2048, 8192]) [] [.allocate ⟨400, 8⟩, .allocate ⟨900, 8⟩, .allocate ⟨5000, 8⟩] with
  | none => rw [he] at hx; cases hx
  | some x =>
    obtain ⟨rs, s, L⟩ := x
    rw [he] at hx
    simp only [Option.any_some, Bool.and_eq_true, beq_iff_eq] at hx
    refine ⟨_, s, L, _, demoStart_start _ 256 (by decide), execAll_sound he, ?_, hx.1⟩
    intro x hx
    have := (List.of_mem_zip (show (x.1, x.2) ∈ _ from hx)).1
    simp only [List.mem_cons, List.not_mem_nil, or_false] at this
    rcases this with h | h | h <;> rw [h] <;> exact ⟨by simp, by simp⟩

/-! ### C14 -/

/-- The calls of `n` rounds of the work `W`, each ended by a reset. -/
def rounds (W : List Layout) : Nat → List Op
  | 0 => []
  | n + 1 => rounds W n ++ (W.map .allocate ++ [.reset])

/-- C14 in full: an allocator made with default settings on top of an allocator that never refuses, repeating the same work
between resets, eventually stops asking the underlying allocator for memory. -/
def C14_full : Prop :=
  ∀ (s0 : St), Start s0 → s0.a.minChunk = 256 → (∀ n, ∃ b, s0.w.oracle n = some b) → ∀ W : List Layout, (∀ l ∈ W, l.Valid) →
    ∃ N, ∀ n s L tr, N ≤ n → Run s0 [] tr s L → tr.map (·.1) = rounds W n → s.w.calls ≤ N

/-- The world of the counterexample: two slots of 512 bytes used alternately. -/
def pingWorld : World where
  mem := fun _ => .uninit
  held := []
  oracle := fun n => some ⟨65536 * (n % 2 + 1), 512⟩
  calls := 0
  log := []
  top := 4611686018427387904
  debug := true

def pingStart : St := ⟨pingWorld, BA.new⟩

theorem pingStart_start : Start pingStart where
  root := rfl
  world := ⟨by decide, .nil, by simp [pingStart, pingWorld]⟩
  dbg := fun _ => ⟨by decide, by decide, by decide⟩
  log := rfl

def pingWork : List Layout := [⟨400, 8⟩, ⟨200, 8⟩]

/-- The chunk kept after a round in which request number `n` was the last one. -/
def pingChunk (n : Nat) : Chunk := ⟨65536 * (n % 2 + 1), 65536 * (n % 2 + 1) + 32, 65536 * (n % 2 + 1) + 512, 0, 512⟩

/-- The same chunk after 400 bytes have been taken from it. -/
def pingUsed (n : Nat) : Chunk := { pingChunk n with cursor := 65536 * (n % 2 + 1) + 432 }

theorem ping_bump (n : Nat) :
    bump (65536 * (n % 2 + 1) + 32) (65536 * (n % 2 + 1) + 512) ⟨400, 8⟩ = some (65536 * (n % 2 + 1) + 32) ∧
    bump (65536 * (n % 2 + 1) + 432) (65536 * (n % 2 + 1) + 512) ⟨200, 8⟩ = none := by
  constructor
  · have hr : roundUp (65536 * (n % 2 + 1) + 32) 8 = 65536 * (n % 2 + 1) + 32 := roundUp_of_mod (by decide) (by omega)
    unfold bump
    simp only [hr]
    rw [if_pos (by omega)]
  · have hr : roundUp (65536 * (n % 2 + 1) + 432) 8 = 65536 * (n % 2 + 1) + 432 := roundUp_of_mod (by decide) (by omega)
    unfold bump
    simp only [hr]
    rw [if_neg (by omega)]

theorem pingV1 : Layout.Valid ⟨400, 8⟩ := ⟨⟨3, rfl⟩, by decide⟩
theorem pingV2 : Layout.Valid ⟨200, 8⟩ := ⟨⟨3, rfl⟩, by decide⟩

/-- The first request of the very first round. -/
theorem ping_begin : ∃ r s1, step pingStart (.allocate ⟨400, 8⟩) = .ok (.block r, s1) ∧
    Inv pingStart s1 [pingUsed 0] [Owned.of r ⟨400, 8⟩] ∧ s1.w.calls = 1 := by
  have hreq : chunkReq (rootCum []) pingStart.a.minChunk ⟨400, 8⟩ = some 512 := by decide +kernel
  have hor : pingStart.w.oracle pingStart.w.calls = some ⟨65536, 512⟩ := rfl
  have hb0 : bump (65536 + 32) (65536 + 512) ⟨400, 8⟩ = some (65536 + 32) := (ping_bump 0).1
  rcases pingStart_start.inv.step' (.allocate pingV1) with ⟨e, ⟨⟨l, sl, he, ho, hf⟩, hnc⟩, _⟩ | ⟨r, s', cs', hst, ⟨o, ho, hr⟩, hi⟩
  · obtain ⟨R, sl', hR, he'⟩ := hnc.2
    rw [hreq] at hR
    injection hR with hR
    subst hR
    rw [he] at he'
    injection he' with e1 e2
    subst e1; subst e2
    rw [hor] at ho
    injection ho with ho
    subst ho
    exact absurd hf (by decide)
  · generalize hw' : s'.w = w' at hr
    cases hr with
    | fast c t a hcs hb => cases hcs
    | slow hb hsl =>
      cases hsl with
      | tooBig h' => rw [hreq] at h'; cases h'
      | refused R h' ho' => rw [hor] at ho'; cases ho'
      | ok R sl m' h' ho' hf hb' hmm hu =>
        rw [hreq] at h'
        injection h' with h'
        subst h'
        rw [hor] at ho'
        injection ho' with ho'
        subst ho'
        subst ho
        exact ⟨_, s', hst, hi _ .allocOk, by rw [hw']; rfl⟩

/-- The first request of a later round. -/
theorem ping_first {s : St} {n : Nat} (h : Inv pingStart s [pingChunk n] []) (hc : s.w.calls = n + 1) :
    ∃ r s1, step s (.allocate ⟨400, 8⟩) = .ok (.block r, s1) ∧ Inv pingStart s1 [pingUsed n] [Owned.of r ⟨400, 8⟩] ∧
      s1.w.calls = n + 1 := by
  have b1 := (ping_bump n).1
  rcases h.step' (.allocate pingV1) with ⟨e, ⟨_, hnc⟩, _⟩ | ⟨r, s', cs', hst, ⟨o, ho, hr⟩, hi⟩
  · have := hnc.1 _ _ rfl
    simp only [pingChunk, b1] at this
    cases this
  · generalize hw' : s'.w = w' at hr
    cases hr with
    | fast c t a hcs hb =>
      injection hcs with e1 e2
      subst e1; subst e2
      simp only [pingChunk, b1, Option.some.injEq] at hb
      subst hb
      subst ho
      exact ⟨_, s', hst, hi _ .allocOk, by rw [hw']; exact hc⟩
    | slow hb =>
      have := hb _ _ rfl
      simp only [pingChunk, b1] at this
      cases this

/-- The second request does not fit, and the reset keeps the new chunk only. -/
theorem ping_second {s1 : St} {n : Nat} {r1 : Slice} (hi1 : Inv pingStart s1 [pingUsed n] [Owned.of r1 ⟨400, 8⟩])
    (hc1 : s1.w.calls = n + 1) :
    ∃ r2 s2 s3, step s1 (.allocate ⟨200, 8⟩) = .ok (.block r2, s2) ∧ step s2 .reset = .ok (.unit, s3) ∧ s3.w.calls = n + 2 ∧
      Inv pingStart s3 [pingChunk (n + 1)] [] := by
  have b2 := (ping_bump n).2
  -- 200 more do not
  have hm1 : s1.a.minChunk = 256 := hi1.min
  have hor : s1.w.oracle s1.w.calls = some ⟨65536 * ((n + 1) % 2 + 1), 512⟩ := by rw [hi1.oracle, hc1]; rfl
  have hfresh : freshOk s1.w ⟨512, 8⟩ ⟨65536 * ((n + 1) % 2 + 1), 512⟩ = true := by
    simp only [freshOk, Bool.and_eq_true, decide_eq_true_eq, List.all_eq_true]
    rw [hi1.top]
    refine ⟨⟨⟨⟨⟨by omega, by omega⟩, by omega⟩, by omega⟩, by simp only [pingStart, pingWorld]; omega⟩, ?_⟩
    intro b hb
    have hb' := hi1.arena.perm.mem_iff.mp hb
    simp only [pingStart, pingWorld, List.map_cons, List.map_nil, List.append_nil, List.mem_singleton] at hb'
    subst hb'
    simp only [Chunk.blk, pingUsed, pingChunk]
    omega
  have hreq : chunkReq (rootCum [pingUsed n]) s1.a.minChunk ⟨200, 8⟩ = some 512 := by
    rw [hm1]
    simp only [rootCum, List.head?_cons, Option.map_some, pingUsed, pingChunk]
    decide +kernel
  obtain ⟨r2, s2, c2, L2, h2, hi2, hc2, hst2, hen2, hrq2⟩ : ∃ r s2 c2 L2, step s1 (.allocate ⟨200, 8⟩) = .ok (.block r, s2) ∧
      Inv pingStart s2 (c2 :: [pingUsed n])
        (Owned.of r ⟨200, 8⟩ :: L2) ∧ s2.w.calls = n + 2 ∧ c2.start = 65536 * ((n + 1) % 2 + 1) ∧
        c2.end_ = 65536 * ((n + 1) % 2 + 1) + 512 ∧ c2.req = 512 ∧ L2 = [Owned.of r1 ⟨400, 8⟩] := by
    rcases hi1.step' (.allocate pingV2) with ⟨e, ⟨⟨l, sl, he, ho, hf⟩, hnc⟩, _⟩ | ⟨r, s', cs', hst, ⟨o, ho, hr⟩, hi⟩
    · obtain ⟨R, sl', hR, he'⟩ := hnc.2
      rw [hreq] at hR
      injection hR with hR
      subst hR
      rw [he] at he'
      injection he' with e1 e2
      subst e1; subst e2
      rw [hor] at ho
      injection ho with ho
      subst ho
      rw [hfresh] at hf
      cases hf
    · generalize hw' : s'.w = w' at hr
      cases hr with
      | fast c t a hcs hb =>
        injection hcs with e1 e2
        subst e1; subst e2
        simp only [pingUsed, pingChunk, b2] at hb
        cases hb
      | slow hb hsl =>
        cases hsl with
        | tooBig h' => rw [hreq] at h'; cases h'
        | refused R h' ho' => rw [hor] at ho'; cases ho'
        | ok R sl m' h' ho' hf hb' hmm hu =>
          rw [hreq] at h'
          injection h' with h'
          subst h'
          rw [hor] at ho'
          injection ho' with ho'
          subst ho'
          subst ho
          exact ⟨_, s', _, _, hst, hi _ .allocOk, by rw [hw']; simp only; omega, rfl, rfl, rfl, rfl⟩
  -- reset
  obtain ⟨s3, h3⟩ : ∃ s3, step s2 .reset = .ok (.unit, s3) := by
    have := (reset_spec (m := s2.a.minChunk) hi2.arena).1
    rw [hi2.eta]
    exact ⟨_, by simp only [step, this]; rfl⟩
  obtain ⟨cs3, ⟨_, hw3, hcs3⟩, hi3⟩ := hi2.step_ok .reset h3 .reset
  refine ⟨r2, s2, s3, h2, h3, ?_, ?_⟩
  · rw [hw3]
    exact (freeAll_fields (rewound s2.w c2) _).2.1.trans hc2
  · rw [hcs3] at hi3
    have : c2.rewind = pingChunk (n + 1) := by
      simp only [Chunk.rewind, pingChunk, hst2, hen2, hrq2]
    simp only [resetChunks, this] at hi3
    exact hi3

theorem rounds_comm (W : List Layout) (n : Nat) : rounds W (n + 1) = rounds W n ++ (W.map .allocate ++ [.reset]) := rfl

/-- `n + 1` rounds take `n + 2` requests. -/
theorem ping_all (n : Nat) : ∃ s tr, Run pingStart [] tr s [] ∧ tr.map (·.1) = rounds pingWork (n + 1) ∧ s.w.calls = n + 2 ∧
    Inv pingStart s [pingChunk (n + 1)] [] := by
  induction n with
  | zero =>
    obtain ⟨r1, s1, h1, hi1, hc1⟩ := ping_begin
    obtain ⟨r2, s2, s3, h2, h3, hc3, hi3⟩ := ping_second hi1 hc1
    exact ⟨s3, _, ((Run.nil.snoc (.allocate pingV1) h1 .allocOk).snoc (.allocate pingV2) h2 .allocOk).snoc .reset h3 .reset, rfl,
      hc3, hi3⟩
  | succ n ih =>
    obtain ⟨s, tr, hr, ht, hc, hi⟩ := ih
    obtain ⟨r1, s1, h1, hi1, hc1⟩ := ping_first hi hc
    obtain ⟨r2, s2, s3, h2, h3, hc3, hi3⟩ := ping_second hi1 hc1
    refine ⟨s3, _, ((hr.snoc (.allocate pingV1) h1 .allocOk).snoc (.allocate pingV2) h2 .allocOk).snoc .reset h3 .reset, ?_,
      hc3, hi3⟩
    rw [rounds_comm, ← ht]
    simp only [List.map_append, List.append_assoc]
    rfl

/-- C14 is false of the code: allocating 400 and then 200 bytes between resets asks for a new chunk in every round, for ever,
although the underlying allocator grants exactly the 512 bytes asked for each time. -/
theorem C14_full_false : ¬ C14_full := by
  intro h
  obtain ⟨N, hN⟩ := h pingStart pingStart_start rfl (fun n => ⟨_, rfl⟩) pingWork (by
    intro l hl
    simp only [pingWork, List.mem_cons, List.not_mem_nil, or_false] at hl
    rcases hl with rfl | rfl
    · exact pingV1
    · exact pingV2)
  obtain ⟨s, tr, hr, ht, hc, _⟩ := ping_all N
  have := hN (N + 1) s [] tr (by omega) hr ht
  omega

/-- C14, the part that holds: once a reset has kept a block `B` whose length covers the header and the sizes plus worst-case
paddings of the calls between any two consecutive resets, the underlying allocator is never called again (not for memory, and
not to give any back) and no call fails, through any number of further rounds. Missing: that resets eventually keep such a
block, which is false in general (`C14_full_false`). -/
theorem C14_converged_partial {s0 s s1 s2 : St} {L L2 : List Owned} (h : Reach s0 s L) {r1 : Resp}
    (hreset : step s .reset = .ok (r1, s1)) {B : BaseBlk} (hB : openBlocks s1.w.log = [B]) {tr : List (Op × Resp)}
    (hrun : Run s1 [] tr s2 L2) (hnf : ∀ x ∈ tr, x.1 ≠ .resetFinal) (hc : peakCost tr + 32 ≤ B.len) :
    (∀ x ∈ tr, x.2 ≠ .err) ∧ Quiet s1 s2 := by
  obtain ⟨cs, hI⟩ := h.inv
  have hr1 : r1 = .unit := by
    obtain ⟨s', h'⟩ := C10_reset_total h
    rw [h'] at hreset
    injection hreset with h1
    injection h1 with h1 h2
    exact h1.symm
  subst hr1
  obtain ⟨cs1, ⟨_, _, hcs1⟩, hI1⟩ := hI.step_ok .reset hreset .reset
  have hc1 : ∃ c, cs1 = [c] ∧ c.cursor = c.start + 32 := by
    rw [hI1.log.1] at hB
    subst hcs1
    cases cs with
    | nil => cases hB
    | cons c t => exact ⟨_, rfl, rfl⟩
  obtain ⟨c, rfl, hcur⟩ := hc1
  have hBlen : B.len = c.end_ - c.start := by
    rw [hI1.log.1] at hB
    simp only [List.map_cons, List.map_nil, List.cons.injEq, and_true] at hB
    rw [← hB]; rfl
  have hok := hI1.arena.ok c List.mem_cons_self
  have := hok.lo; have := hok.hi
  suffices hsuff : (∀ x ∈ tr, x.2 ≠ .err) ∧ Quiet s1 s2 ∧ ∃ c', Inv s0 s2 [c'] L2 ∧ c'.start = c.start ∧ c'.end_ = c.end_ ∧
      c'.cursor ≤ c.start + 32 + (tr.foldl segment (0, 0)).1 from ⟨hsuff.1, hsuff.2.1⟩
  clear hreset
  induction hrun with
  | nil => exact ⟨by simp, ⟨rfl, rfl, rfl⟩, c, hI1, rfl, rfl, by simp [hcur]⟩
  | @snoc tr s L op r s' L' hr hl hs ha ih =>
    have hpk : peakCost tr ≤ peakCost (tr ++ [(op, r)]) ∧
        ((tr ++ [(op, r)]).foldl segment (0, 0)).1 ≤ peakCost (tr ++ [(op, r)]) := by
      unfold peakCost
      rw [List.foldl_append]
      simp only [List.foldl_cons, List.foldl_nil, segment]
      exact ⟨Nat.le_max_left _ _, Nat.le_max_right _ _⟩
    obtain ⟨i1, i2, c', hi', e1, e2, e3⟩ := ih (fun x hx => hnf x (List.mem_append_left _ hx)) (by omega)
    have hseg : ((tr ++ [(op, r)]).foldl segment (0, 0)).1 =
        if op = .reset then 0 else (tr.foldl segment (0, 0)).1 + op.cost := by
      rw [List.foldl_append]; rfl
    rw [hseg] at hpk ⊢
    by_cases hop : op = .reset
    · subst hop
      obtain ⟨cs2, ⟨hr', hw2, hcs2⟩, hI2⟩ := hi'.step_ok hl hs ha
      subst hr'
      simp only [resetChunks] at hcs2
      subst hcs2
      refine ⟨?_, ?_, _, hI2, e1, e2, ?_⟩
      · intro x hx
        rcases List.mem_append.mp hx with hx | hx
        · exact i1 x hx
        · rw [List.mem_singleton.mp hx]; nofun
      · unfold Quiet
        rw [hw2]
        exact i2
      · simp only [Chunk.rewind, if_true]; omega
    · rw [if_neg hop] at hpk ⊢
      obtain ⟨r', s'', c2, hst, hne, hq, hinv, f1, f2, f3⟩ := hi'.warm hl ⟨hop, hnf _ (List.mem_append_right _ List.mem_cons_self)⟩
        (by omega)
      rw [hs] at hst
      injection hst with hst
      injection hst with h1 h2
      subst h1; subst h2
      refine ⟨?_, ⟨hq.1.trans i2.1, hq.2.1.trans i2.2.1, hq.2.2.trans i2.2.2⟩, c2, hinv _ ha, f1.trans e1, f2.trans e2, by omega⟩
      intro x hx
      rcases List.mem_append.mp hx with hx | hx
      · exact i1 x hx
      · rw [List.mem_singleton.mp hx]; exact hne

/-- Without a chunk, a request is refused or gets a chunk of at least the minimal size. -/
theorem AllocRes.firstChunk {w m l o w' cs'} (hl : l.Valid) (hr : AllocRes w [] m l o w' cs') :
    (cs' = [] ∧ grants w'.log = grants w.log) ∨ ∃ c, cs' = [c] ∧ grants w'.log = grants w.log + 1 ∧
      c.cursor ≤ c.start + 32 + (l.size + l.align - 1) ∧ c.start + 32 + m ≤ c.end_ := by
  cases hr with
  | fast c t a hcs hb => cases hcs
  | slow hb hs =>
    cases hs with
    | tooBig => exact .inl ⟨rfl, rfl⟩
    | refused => exact .inl ⟨rfl, rfl⟩
    | ok R sl m' h' ho hf hb' =>
      right
      refine ⟨_, rfl, rfl, ?_, ?_⟩
      · have := bump_facts hl hb'
        obtain ⟨k, _, hk, hpos, _⟩ := hl.facts
        have h3 := roundUp_facts (sl.addr + 32) hpos
        simp only [newChunk]
        omega
      · have h1 := (chunkReq_facts h').1
        have h2 : m + 32 ≤ need (rootCum []) m l := by
          simp only [need, rootCum]
          simp
          omega
        simp only [freshOk, Bool.and_eq_true, decide_eq_true_eq] at hf
        simp only [newChunk]
        omega

/-- C14, the part that holds from the start: if the minimal chunk size covers the sizes plus worst-case paddings of the calls
between any two consecutive resets, the underlying allocator grants at most one request in the whole life of the allocator.
Missing: the same for smaller chunk sizes, which is false (`C14_full_false`). -/
theorem C14_presized_partial {s0 s : St} {L : List Owned} (h0 : Start s0) {tr : List (Op × Resp)} (hr : Run s0 [] tr s L)
    (hnf : ∀ x ∈ tr, x.1 ≠ .resetFinal) (hc : peakCost tr ≤ s0.a.minChunk) : grants s.w.log ≤ 1 := by
  suffices hsuff : ∃ cs, Inv s0 s cs L ∧ ((cs = [] ∧ grants s.w.log = 0) ∨ ∃ c, cs = [c] ∧ grants s.w.log = 1 ∧
      c.cursor ≤ c.start + 32 + (tr.foldl segment (0, 0)).1 ∧ c.start + 32 + s0.a.minChunk ≤ c.end_) by
    obtain ⟨_, _, h | ⟨_, _, h, _⟩⟩ := hsuff
    · omega
    · omega
  induction hr with
  | nil => exact ⟨[], h0.inv, .inl ⟨rfl, by rw [h0.log]; rfl⟩⟩
  | @snoc tr s L op r s' L' hr hl hs ha ih =>
    have hpk : peakCost tr ≤ peakCost (tr ++ [(op, r)]) ∧
        ((tr ++ [(op, r)]).foldl segment (0, 0)).1 ≤ peakCost (tr ++ [(op, r)]) := by
      unfold peakCost
      rw [List.foldl_append]
      simp only [List.foldl_cons, List.foldl_nil, segment]
      exact ⟨Nat.le_max_left _ _, Nat.le_max_right _ _⟩
    obtain ⟨cs, hI, hcs⟩ := ih (fun x hx => hnf x (List.mem_append_left _ hx)) (by omega)
    have hop' := hnf _ (List.mem_append_right _ List.mem_cons_self)
    simp only at hop'
    have hseg : ((tr ++ [(op, r)]).foldl segment (0, 0)).1 =
        if op = .reset then 0 else (tr.foldl segment (0, 0)).1 + op.cost := by
      rw [List.foldl_append]; rfl
    rw [hseg] at hpk ⊢
    rcases hcs with ⟨rfl, hg⟩ | ⟨c, rfl, hg, h1, h2⟩
    · obtain ⟨cs', ho, hI'⟩ := hI.step_ok hl hs ha
      refine ⟨cs', hI', ?_⟩
      have fin : ∀ {l : Layout} {w' : World}, op.cost = l.size + l.align - 1 → op ≠ .reset → ((cs' = [] ∧ grants w'.log = grants s.w.log) ∨
          ∃ c, cs' = [c] ∧ grants w'.log = grants s.w.log + 1 ∧
          c.cursor ≤ c.start + 32 + (l.size + l.align - 1) ∧ c.start + 32 + s.a.minChunk ≤ c.end_) → s'.w.log = w'.log →
          (cs' = [] ∧ grants s'.w.log = 0) ∨ ∃ c, cs' = [c] ∧ grants s'.w.log = 1 ∧
            c.cursor ≤ c.start + 32 + (if op = .reset then 0 else (tr.foldl segment (0, 0)).1 + op.cost) ∧
            c.start + 32 + s0.a.minChunk ≤ c.end_ := by
        intro l w' hcost hne h hlog
        rw [hlog, if_neg hne]
        have := hI.min
        rcases h with ⟨h, h'⟩ | ⟨c, h, h', h3, h4⟩
        · exact .inl ⟨h, by omega⟩
        · exact .inr ⟨c, h, by omega, by omega, by omega⟩
      cases hl with
      | allocate hv =>
        obtain ⟨o, _, hr⟩ := ho
        exact fin rfl nofun (hr.firstChunk hv) rfl
      | allocateZeroed hv =>
        obtain ⟨o, w1, _, hr, hw⟩ := ho
        refine fin rfl nofun (hr.firstChunk hv) ?_
        cases o with
        | none => simp only at hw; rw [hw]
        | some sl => simp only at hw; rw [hw]
      | resize hb hf => exact absurd (InUsed.of_fits hI.led hb hf) (by rintro ⟨_, h, _⟩; cases h)
      | growZeroed hb hf => exact absurd (InUsed.of_fits hI.led hb hf) (by rintro ⟨_, h, _⟩; cases h)
      | deallocate => exact .inl ⟨ho.2.2, by rw [ho.2.1]; exact hg⟩
      | reset => exact .inl ⟨ho.2.2, by rw [ho.2.1]; exact hg⟩
      | resetFinal => exact absurd rfl hop'
      | write => exact .inl ⟨ho.2.2, by rw [ho.2.1]; exact hg⟩
    · by_cases hop : op = .reset
      · subst hop
        obtain ⟨cs2, ⟨hr', hw2, hcs2⟩, hI2⟩ := hI.step_ok hl hs ha
        refine ⟨cs2, hI2, .inr ⟨c.rewind, hcs2, by rw [hw2]; exact hg, ?_, h2⟩⟩
        simp only [Chunk.rewind, if_true]; omega
      · rw [if_neg hop] at hpk ⊢
        obtain ⟨r', s'', c2, hst, hne, hq, hinv, f1, f2, f3⟩ := hI.warm hl ⟨hop, hop'⟩ (by omega)
        rw [hs] at hst
        injection hst with hst
        injection hst with e1 e2
        subst e1; subst e2
        exact ⟨_, hinv _ ha, .inr ⟨c2, rfl, by rw [hq.2.1]; exact hg, by omega, by omega⟩⟩

/-- Non-vacuity: the same work as in the counterexample, three rounds, with a minimal chunk size of 1024. -/
example : ∃ s0 s L tr, Start s0 ∧ Run s0 [] tr s L ∧ (∀ x ∈ tr, x.1 ≠ .resetFinal) ∧ peakCost tr ≤ s0.a.minChunk ∧
    tr.length = 9 ∧ grants s.w.log = 1 := by
  have hx : (execAll (demoStart [4096, 4096] 1024) [] (rounds pingWork 3)).any
      (fun x => grants x.2.1.w.log == 1 && ((rounds pingWork 3).zip x.1).length == 9 &&
        decide (peakCost ((rounds pingWork 3).zip x.1) ≤ 1024)) = true := by decide +kernel
  cases he : execAll (demoStart [4096, 4096] 1024) [] (rounds pingWork 3) with
  | none => rw [he] at hx; cases hx
  | some x =>
    obtain ⟨rs, s, L⟩ := x
    rw [he] at hx
    simp only [Option.any_some, Bool.and_eq_true, beq_iff_eq, decide_eq_true_eq] at hx
    refine ⟨_, s, L, _, demoStart_start _ 1024 (by decide), execAll_sound he, ?_, hx.2, hx.1.2, hx.1.1⟩
    intro x hx
    have := (List.of_mem_zip (show (x.1, x.2) ∈ _ from hx)).1
    simp only [rounds, pingWork, List.map_cons, List.map_nil, List.nil_append, List.cons_append, List.mem_cons, List.not_mem_nil,
      or_false] at this
    rcases this with h | h | h | h | h | h | h | h | h <;> rw [h] <;> nofun

/-- Non-vacuity of `C14_converged_partial`: the first reset keeps a block of 2048 bytes, and the counterexample's work is done
three times in it. -/
example : ∃ s0 s s1 s2 L L2 B tr, Reach s0 s L ∧ step s .reset = .ok (.unit, s1) ∧ openBlocks s1.w.log = [B] ∧
    Run s1 [] tr s2 L2 ∧ (∀ x ∈ tr, x.1 ≠ .resetFinal) ∧ peakCost tr + 32 ≤ B.len ∧ tr.length = 9 := by
  obtain ⟨s, L, r, s1, hr, _, hst, _, hf⟩ := of_demoAt (sizes := [512, 2048]) (m := 256)
    (ops := [.allocate ⟨400, 8⟩, .allocate ⟨900, 8⟩]) (op := .reset)
    (f := fun _ _ r s1 => r == .unit && (openBlocks s1.w.log).length == 1 && ((openBlocks s1.w.log).headD default).len == 2048 &&
      (execAll s1 [] (rounds pingWork 3)).any (fun x => ((rounds pingWork 3).zip x.1).length == 9 &&
        decide (peakCost ((rounds pingWork 3).zip x.1) ≤ 1024))) (by decide) (by decide +kernel)
  simp only [Bool.and_eq_true, beq_iff_eq] at hf
  obtain ⟨⟨⟨h1, h2⟩, h3⟩, h4⟩ := hf
  subst h1
  cases hB : openBlocks s1.w.log with
  | nil => rw [hB] at h2; cases h2
  | cons B t =>
    rw [hB] at h2 h3
    have ht : t = [] := by cases t with
      | nil => rfl
      | cons => cases h2
    subst ht
    cases he : execAll s1 [] (rounds pingWork 3) with
    | none => rw [he] at h4; cases h4
    | some x =>
      obtain ⟨rs, s2, L2⟩ := x
      rw [he] at h4
      simp only [Option.any_some, Bool.and_eq_true, beq_iff_eq, decide_eq_true_eq] at h4
      refine ⟨_, s, s1, s2, L, L2, B, _, hr, hst, hB, execAll_sound he, ?_, ?_, h4.1⟩
      · intro x hx
        have := (List.of_mem_zip (show (x.1, x.2) ∈ _ from hx)).1
        simp only [rounds, pingWork, List.map_cons, List.map_nil, List.nil_append, List.cons_append, List.mem_cons,
          List.not_mem_nil, or_false] at this
        rcases this with h | h | h | h | h | h | h | h | h <;> rw [h] <;> nofun
      · have : B.len = 2048 := h3
        omega

end Blink
