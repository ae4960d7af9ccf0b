import Verif.Proofs.GlobalStep
import Verif.Spec.GlobalExec
import Verif.Props.Room
/-
  Properties C48 to C51 of the single-threaded global allocator (src/global/local.rs).
-/
namespace Blink

/-- A history used in examples: two blocks in direct mode, then blink mode with two allocations, a reallocation of the first
and a store into it. -/
def gdemoOps : List GOp :=
  [.alloc ⟨24, 8⟩, .allocZeroed ⟨5, 1⟩, .blinkMode, .alloc ⟨10, 2⟩, .write 196640 (.raw 7), .alloc ⟨16, 16⟩, .realloc 196640 ⟨10, 2⟩ 30]

/-! ### C48 -/

/-- C48 as wished for: in direct mode no legal call does anything the underlying allocator forbids. -/
def C48_full : Prop :=
  ∀ (g0 g : GS) (K : GBook) (op : GOp) (e : Fault), GReach g0 g K → K.blinkMode = false → GLegal K op →
    gstep g op = .error e → GBad g op e

/-- C48 is false: `realloc` of a block obtained in direct mode from 24 to 48 bytes calls `shrink` of the underlying allocator with a
larger layout. -/
theorem C48_full_false : ¬ C48_full := by
  intro h
  obtain ⟨g, K, hr, hl, hf⟩ := of_gdemoAt (sizes := [24, 100]) (debug := true) (ops := [.alloc ⟨24, 8⟩]) (op := .realloc 65536 ⟨24, 8⟩ 48)
    (f := fun _ K x => !K.blinkMode && match x with
      | .error e => decide (e = .ub "shrink to a larger layout")
      | .ok _ => false) (by decide +kernel)
  simp only [Bool.and_eq_true, Bool.not_eq_true'] at hf
  obtain ⟨hm, hf⟩ := hf
  cases hx : gstep g (.realloc 65536 ⟨24, 8⟩ 48) with
  | ok y => rw [hx] at hf; cases hf
  | error e =>
    rw [hx] at hf
    have he : e = .ub "shrink to a larger layout" := of_decide_eq_true hf
    subst he
    have hb := h _ g K _ _ hr hm hl hx
    unfold GBad at hb
    obtain ⟨l, sl, hc, _⟩ := hb
    cases hc

/-- C48, the defect in full: in direct mode *every* `realloc` of a block to a different size (that makes a layout at all) violates
the contract of the underlying allocator: it calls `grow` with a smaller, or `shrink` with a larger layout. -/
theorem C48_realloc_always_wrong {g0 g : GS} {K : GBook} {p n : Nat} {l : Layout} (h : GReach g0 g K) (hm : K.blinkMode = false)
    (hl : GLegal K (.realloc p l n)) (hn : n ≠ l.size) (hs : n + l.align ≤ ISIZE) :
    ∃ why, gstep g (.realloc p l n) = .error (.ub why) := by
  obtain ⟨cs, D, hI⟩ := h.inv
  apply hI.uncalm hl
  rintro (h1 | h1 | h1)
  · rw [hm] at h1; cases h1
  · exact hn h1
  · omega

/-- C48, what holds: in direct mode every other call succeeds or fails as the underlying allocator does. Each request is passed on once,
as it is, and the answer is returned; a `realloc` to a size that makes no layout returns null and does nothing. No byte of another
block changes; `realloc` keeps the contents and `alloc_zeroed` yields zeros.
Missing: `realloc` to another size, for which this is false. -/
theorem C48_partial {g0 g : GS} {K : GBook} {op : GOp} (h : GReach g0 g K) (hm : K.blinkMode = false) (hl : GLegal K op)
    (hheap : (∃ l, op = .alloc l ∨ op = .allocZeroed l) ∨ (∃ p l, op = .dealloc p l) ∨
      ∃ p l n, op = .realloc p l n ∧ (n = l.size ∨ ISIZE < n + l.align)) :
    (∃ e, GBad g op e ∧ gstep g op = .error e) ∨
    ∃ r g', gstep g op = .ok (r, g') ∧
      (Forwarded op r g g' ∨ (∃ p l n, op = .realloc p l n ∧ ISIZE < n + l.align ∧ r = .ptr 0 ∧ g' = g)) ∧
      (∀ b ∈ K.all, ¬ GivesUp K op r b → ∀ x, b.Has x → g'.w.mem x = g.w.mem x) ∧
      (∀ p l n q, op = .realloc p l n → r = .ptr q → q ≠ 0 → ∀ i, i < min l.size n → g'.w.mem (q + i) = g.w.mem (p + i)) ∧
      (∀ l q, op = .allocZeroed l → r = .ptr q → q ≠ 0 → ∀ i, i < l.size → g'.w.mem (q + i) = .raw 0) := by
  obtain ⟨cs, D, hI⟩ := h.inv
  have hnw : ∀ x v, op ≠ .write x v := by
    rcases hheap with ⟨_, rfl | rfl⟩ | ⟨_, _, rfl⟩ | ⟨_, _, _, rfl, _⟩ <;> (intros; simp)
  have fin : GGood g0 g K op (gstep g op) → (∀ r g', gstep g op = .ok (r, g') →
      (Forwarded op r g g' ∨ (∃ p l n, op = .realloc p l n ∧ ISIZE < n + l.align ∧ r = .ptr 0 ∧ g' = g))) →
      (∃ e, GBad g op e ∧ gstep g op = .error e) ∨
      ∃ r g', gstep g op = .ok (r, g') ∧
        (Forwarded op r g g' ∨ (∃ p l n, op = .realloc p l n ∧ ISIZE < n + l.align ∧ r = .ptr 0 ∧ g' = g)) ∧
        (∀ b ∈ K.all, ¬ GivesUp K op r b → ∀ x, b.Has x → g'.w.mem x = g.w.mem x) ∧
        (∀ p l n q, op = .realloc p l n → r = .ptr q → q ≠ 0 → ∀ i, i < min l.size n → g'.w.mem (q + i) = g.w.mem (p + i)) ∧
        (∀ l q, op = .allocZeroed l → r = .ptr q → q ≠ 0 → ∀ i, i < l.size → g'.w.mem (q + i) = .raw 0) := by
    rintro (hb | ⟨r, g', he, hr, _, _⟩) hf
    · exact .inl hb
    · exact .inr ⟨r, g', he, hf r g' he, fun b hb hn x hx => hr.keep b hb hn x hx (hnw x), hr.copied, hr.zeroed⟩
  cases hl with
  | alloc hv hz => have := hI.directAlloc hm hv hz; exact fin this.1 fun r g' he => .inl (this.2 r g' he)
  | allocZeroed hv hz => have := hI.directZeroed hm hv hz; exact fin this.1 fun r g' he => .inl (this.2 r g' he)
  | dealloc hb hi => have := hI.directDealloc hm hb hi; exact fin this.1 fun r g' he => .inl (this.2 r g' he)
  | @realloc b p l n hb hi hz =>
    by_cases hn : ISIZE < n + l.align
    · have hnone : layoutFrom n l.align = none := by unfold layoutFrom; rw [if_neg (by omega)]
      refine fin (hI.reallocNone hnone) fun r g' he => .inr ⟨p, l, n, rfl, hn, ?_⟩
      unfold gstep at he
      dsimp only at he
      rw [hnone] at he
      cases he
      exact ⟨rfl, rfl⟩
    · have hn' : n = l.size := by
        rcases hheap with ⟨_, h | h⟩ | ⟨_, _, h⟩ | ⟨_, _, _, h, h'⟩
        · cases h
        · cases h
        · cases h
        · cases h
          rcases h' with h' | h'
          · exact h'
          · exact absurd h' hn
      subst hn'
      have := hI.directRealloc hm hb hi hz (by omega)
      exact fin this.1 fun r g' he => .inl (this.2 r g' he)
  | _ => simp at hheap

/-- Non-vacuity: in direct mode, with a block of each mode's making around, a block is reallocated to its own size. -/
example : ∃ g0 g K, GReach g0 g K ∧ K.blinkMode = false ∧ GLegal K (.realloc 65536 ⟨24, 8⟩ 24) ∧
    ∃ q g', gstep g (.realloc 65536 ⟨24, 8⟩ 24) = .ok (.ptr q, g') ∧ q ≠ 0 := by
  obtain ⟨g, K, hr, hl, hf⟩ := of_gdemoAt (sizes := [24, 5, 4096, 30]) (debug := true)
    (ops := gdemoOps ++ [.dealloc 196672 ⟨30, 2⟩, .dealloc 196656 ⟨16, 16⟩, .directMode]) (op := .realloc 65536 ⟨24, 8⟩ 24)
    (f := fun _ K x => !K.blinkMode && match x with
      | .ok (.ptr q, _) => decide (q ≠ 0)
      | _ => false) (by decide +kernel)
  simp only [Bool.and_eq_true, Bool.not_eq_true'] at hf
  refine ⟨_, g, K, hr, hf.1, hl, ?_⟩
  have h2 := hf.2
  split at h2
  · rename_i q g' hx; exact ⟨q, g', hx, of_decide_eq_true h2⟩
  · cases h2

/-! ### C49 -/

/-- C49: blocks handed out and not yet deallocated are pairwise disjoint, whatever mode they were obtained in. -/
theorem C49_no_overlap {g0 g : GS} {K : GBook} (h : GReach g0 g K) : K.all.Pairwise Owned.Apart := by
  obtain ⟨cs, D, hI⟩ := h.inv
  exact hI.apart

/-- C49: each such block is not null, aligned, as long as requested, and lies in memory held from the underlying allocator. -/
theorem C49_layout_and_memory {g0 g : GS} {K : GBook} (h : GReach g0 g K) {b : Owned} (hb : b ∈ K.all) :
    0 < b.addr ∧ b.addr % b.align = 0 ∧ b.len = b.size ∧ 0 < b.size ∧ g.w.accessible b.addr b.size = true := by
  obtain ⟨cs, D, hI⟩ := h.inv
  rcases List.mem_append.mp hb with hb | hb
  · have hs := hI.sz b hb
    refine ⟨hI.inner.pos hb, (hI.inner.led.each b hb).2.2.1, hs.2, hs.1, ?_⟩
    exact hI.inner.acc hb (Nat.le_refl _) (by omega)
  · obtain ⟨d, hd, rfl⟩ := hI.direct_mem hb
    have hg := hI.good d hd
    exact ⟨hI.direct_pos hd, hg.al, rfl, hg.pos, accessible_of (hI.dinv.mem hd) (Nat.le_refl _) (by
      have := hg.len; simp only [BaseBlk.own, granted]; omega)⟩

/-- C49: in blink mode every legal call returns, unless the underlying allocator breaks its contract. -/
theorem C49_no_fault {g0 g : GS} {K : GBook} {op : GOp} (h : GReach g0 g K) (hm : K.blinkMode = true) (hl : GLegal K op) :
    (∃ r g' K', gstep g op = .ok (r, g') ∧ GAfter K op r K') ∨ ∃ e, GBad g op e ∧ gstep g op = .error e := by
  obtain ⟨cs, D, hI⟩ := h.inv
  rcases hI.step hl (by cases op <;> first | trivial | exact .inl hm) with hb | ⟨r, g', he, _, ⟨K', ha⟩, _⟩
  · exact .inr hb
  · exact .inl ⟨r, g', K', he, ha⟩

/-- C49: no call changes a byte of a block that the program owned and still owns afterwards, except the program's own store to it.
In particular a null result leaves everything as it was. -/
theorem C49_keeps {g0 g g' : GS} {K : GBook} {op : GOp} {r : GResp} (h : GReach g0 g K) (hl : GLegal K op)
    (hs : gstep g op = .ok (r, g')) {b : Owned} (hb : b ∈ K.all) (hn : ¬ GivesUp K op r b) {x : Nat} (hx : b.Has x)
    (hw : ∀ v, op ≠ .write x v) : g'.w.mem x = g.w.mem x := by
  obtain ⟨cs, D, hI⟩ := h.inv
  rcases hI.step hl (hI.calm hl hs) with ⟨e, _, he⟩ | ⟨r1, g1, he, hr, _⟩
  · rw [he] at hs; cases hs
  · rw [he] at hs; cases hs
    exact hr.keep b hb hn x hx hw

/-- C49: `realloc` copies the contents, as far as both sizes reach. -/
theorem C49_realloc {g0 g g' : GS} {K : GBook} {p n q : Nat} {l : Layout} (h : GReach g0 g K) (hl : GLegal K (.realloc p l n))
    (hs : gstep g (.realloc p l n) = .ok (.ptr q, g')) (hq : q ≠ 0) :
    ∀ i, i < min l.size n → g'.w.mem (q + i) = g.w.mem (p + i) := by
  obtain ⟨cs, D, hI⟩ := h.inv
  rcases hI.step hl (hI.calm hl hs) with ⟨e, _, he⟩ | ⟨r1, g1, he, hr, _⟩
  · rw [he] at hs; cases hs
  · rw [he] at hs; cases hs
    exact hr.copied _ _ _ _ rfl rfl hq

/-- C49: `alloc_zeroed` yields zeros. -/
theorem C49_zeroed {g0 g g' : GS} {K : GBook} {q : Nat} {l : Layout} (h : GReach g0 g K) (hl : GLegal K (.allocZeroed l))
    (hs : gstep g (.allocZeroed l) = .ok (.ptr q, g')) (hq : q ≠ 0) : ∀ i, i < l.size → g'.w.mem (q + i) = .raw 0 := by
  obtain ⟨cs, D, hI⟩ := h.inv
  rcases hI.step hl (hI.calm hl hs) with ⟨e, _, he⟩ | ⟨r1, g1, he, hr, _⟩
  · rw [he] at hs; cases hs
  · rw [he] at hs; cases hs
    exact hr.zeroed _ _ rfl rfl hq

/-- C49: `realloc` returns null without having asked for anything if the new size makes no layout, and otherwise only if the
underlying allocator refused a request in this call or the size computation left the range of `usize`; likewise `alloc`. In blink mode
nothing is ever asked directly. -/
theorem C49_null_for_a_reason {g0 g g' : GS} {K : GBook} {op : GOp} {l : Layout} (h : GReach g0 g K) (hm : K.blinkMode = true)
    (hl : GLegal K op) (hop : op = .alloc l ∨ op = .allocZeroed l ∨ ∃ p l0 n, op = .realloc p l0 n ∧ l = ⟨n, l0.align⟩)
    (hs : gstep g op = .ok (.ptr 0, g')) :
    g'.dlog = g.dlog ∧ ((g'.w = g.w ∧ ISIZE < l.size + l.align) ∨
    (∃ R, g'.w.log = .refused R :: g.w.log ∧ g.w.oracle g.w.calls = none ∧ g'.w.mem = g.w.mem ∧ g'.w.held = g.w.held) ∨
    (g'.w = g.w ∧ USIZE ≤ max g.a.minChunk (totalLen (openBlocks g.w.log)) + max l.size 64 + l.align + 32 + 16384 + 8)) := by
  obtain ⟨cs, D, hI⟩ := h.inv
  have hen : g.enabled = true := hI.mode.trans hm
  have key : ∀ {w' cs'}, AllocRes g.w cs g.a.minChunk l none w' cs' → 
      (∃ R, w'.log = .refused R :: g.w.log ∧ g.w.oracle g.w.calls = none ∧ w'.mem = g.w.mem ∧ w'.held = g.w.held) ∨
      (w' = g.w ∧ USIZE ≤ max g.a.minChunk (totalLen (openBlocks g.w.log)) + max l.size 64 + l.align + 32 + 16384 + 8) := by
    intro w' cs' hr
    cases hr with
    | slow hb hsl =>
      cases hsl with
      | refused R hreq ho => exact .inl ⟨_, rfl, ho, rfl, rfl⟩
      | tooBig hreq =>
        refine .inr ⟨rfl, ?_⟩
        have hn := chunkReq_none hreq
        have hcum : ∀ c, rootCum cs = some c → c ≤ totalLen (openBlocks g.w.log) := by
          intro c hc
          rw [hI.inner.log.1]
          cases cs with
          | nil => cases hc
          | cons d t =>
            simp only [rootCum, List.head?_cons, Option.map_some, Option.some.injEq] at hc
            have := hI.inner.arena.cum.1
            have h2 : ∀ t : List Chunk, (t.map Chunk.cap).sum ≤ totalLen (t.map Chunk.blk) := by
              intro t
              induction t with
              | nil => simp [totalLen]
              | cons e t ih => simp only [totalLen, List.map_cons, List.sum_cons, Chunk.cap, Chunk.blk] at *; omega
            have := h2 t
            simp only [totalLen, List.map_cons, List.sum_cons] at *
            omega
        unfold need at hn
        cases hrc : rootCum cs with
        | none => rw [hrc] at hn; simp only at hn; split at hn <;> omega
        | some c =>
          have := hcum c hrc
          rw [hrc] at hn; simp only at hn; split at hn <;> omega
  have gr : ∀ {g1 : GS} {o : Option Slice} {g2}, g1.granted (.ofOption o) = .ok (.ptr 0, g2) →
      (∀ s, o = some s → 0 < s.addr) → o = none ∧ g2 = g1 := by
    intro g1 o g2 hg hp
    cases o with
    | none => cases hg; exact ⟨rfl, rfl⟩
    | some s =>
      have := hp s rfl
      unfold GS.granted Resp.ofOption at hg
      dsimp only at hg
      split at hg
      · split at hg
        · injection hg with hg; injection hg with e1 e2; injection e1 with e1; omega
        · cases hg
      · injection hg with hg; injection hg with e1 e2; injection e1 with e1; omega
  rcases hop with rfl | rfl | ⟨p, l0, n, rfl, rfl⟩
  · cases hl with
    | alloc hv hz =>
      rcases hI.call (.allocate hv) with ⟨e, hb, he⟩ | ⟨r, g1, cs', he, hst, h1, h2, h3, h4, ⟨o, ho, hr⟩, hi, hk⟩
      · unfold gstep GS.allocate at hs
        dsimp only at hs
        rw [if_pos hen, ebind_err' he] at hs; cases hs
      · unfold gstep GS.allocate at hs
        dsimp only at hs
        subst ho
        rw [if_pos hen, ebind_ok' he] at hs
        obtain ⟨rfl, rfl⟩ := gr hs (by rintro s rfl; exact (hi _ .allocOk).pos List.mem_cons_self)
        exact ⟨h1, .inr (key hr)⟩
  · cases hl with
    | allocZeroed hv hz =>
      rcases hI.call (.allocateZeroed hv) with ⟨e, hb, he⟩ | ⟨r, g1, cs', he, hst, h1, h2, h3, h4, ⟨o, w1, ho, hr, hw⟩, hi, hk⟩
      · unfold gstep GS.allocateZeroed at hs
        dsimp only at hs
        rw [if_pos hen, ebind_err' he] at hs; cases hs
      · unfold gstep GS.allocateZeroed at hs
        dsimp only at hs
        subst ho
        rw [if_pos hen, ebind_ok' he] at hs
        obtain ⟨rfl, rfl⟩ := gr hs (by rintro s rfl; exact (hi _ .zeroedOk).pos List.mem_cons_self)
        simp only at hw
        rw [← hw] at hr
        exact ⟨h1, .inr (key hr)⟩
  · cases hl with
    | @realloc b _ _ _ hb hbi hz =>
      cases hn : layoutFrom n l0.align with
      | none =>
        unfold gstep at hs
        dsimp only at hs
        rw [hn] at hs
        cases hs
        refine ⟨rfl, .inl ⟨rfl, ?_⟩⟩
        unfold layoutFrom at hn
        split at hn
        · cases hn
        · dsimp only; omega
      | some new =>
        have hbb : b ∈ K.blink := by unfold GBook.cur at hb; rwa [if_pos hm] at hb
        obtain ⟨hv, rfl⟩ := layoutFrom_valid (hbi.2.2 ▸ (hI.inner.led.each b hbb).2.1) hn
        have hp : p ≠ 0 := by have := hI.inner.pos hbb; have := hbi.1; omega
        have hf := hI.blinkFits hbb hbi
        rcases hI.call (.resize hbb hf hv) with ⟨e, hb, he⟩ | ⟨r, g1, cs', he, hst, h1, h2, h3, h4, ⟨o, ho, hr⟩, hi, hk⟩
        · unfold gstep GS.resize at hs
          dsimp only at hs
          rw [hn] at hs
          dsimp only at hs
          rw [if_neg hp, if_pos hen, ebind_err' he] at hs; cases hs
        · unfold gstep GS.resize at hs
          dsimp only at hs
          subst ho
          rw [hn] at hs
          dsimp only at hs
          rw [if_neg hp, if_pos hen, ebind_ok' he] at hs
          cases o with
          | some s =>
            have := (hi _ (.resizeOk hbb hf)).pos List.mem_cons_self
            simp only [Owned.of] at this
            injection hs with hs
            injection hs with e1 e2
            simp only [Resp.ofOption, GResp.ofResp, GResp.ptr.injEq] at e1
            omega
          | none =>
            cases hs
            refine ⟨h1, .inr ?_⟩
            generalize g1.w = w' at hr
            cases hr with
            | fail w1 cs1 hn hg hr => exact key hr

/-- Non-vacuity: a history in blink mode with direct blocks around; the reallocated block moved, and another is reallocated. -/
example : ∃ g0 g K, GReach g0 g K ∧ K.blinkMode = true ∧ 2 ≤ K.blink.length ∧ 2 ≤ K.direct.length ∧
    GLegal K (.realloc 196656 ⟨16, 16⟩ 40) ∧ ∃ q g', gstep g (.realloc 196656 ⟨16, 16⟩ 40) = .ok (.ptr q, g') ∧ q ≠ 0 := by
  obtain ⟨g, K, hr, hl, hf⟩ := of_gdemoAt (sizes := [24, 5, 4096]) (debug := true)
    (ops := gdemoOps) (op := .realloc 196656 ⟨16, 16⟩ 40)
    (f := fun _ K x => K.blinkMode && decide (2 ≤ K.blink.length) && decide (2 ≤ K.direct.length) && match x with
      | .ok (.ptr q, _) => decide (q ≠ 0)
      | _ => false) (by decide +kernel)
  simp only [Bool.and_eq_true, decide_eq_true_eq] at hf
  refine ⟨_, g, K, hr, hf.1.1.1, hf.1.1.2, hf.1.2, hl, ?_⟩
  have h2 := hf.2
  split at h2
  · rename_i q g' hx; exact ⟨q, g', hx, of_decide_eq_true h2⟩
  · cases h2

/-- Non-vacuity: null because the underlying allocator refused. -/
example : ∃ g0 g K, GReach g0 g K ∧ K.blinkMode = true ∧ GLegal K (.alloc ⟨5000, 8⟩) ∧ ∃ g', gstep g (.alloc ⟨5000, 8⟩) = .ok (.ptr 0, g') := by
  obtain ⟨g, K, hr, hl, hf⟩ := of_gdemoAt (sizes := [24, 5, 4096]) (debug := true)
    (ops := gdemoOps) (op := .alloc ⟨5000, 8⟩)
    (f := fun _ K x => K.blinkMode && match x with
      | .ok (.ptr q, _) => decide (q = 0)
      | _ => false) (by decide +kernel)
  simp only [Bool.and_eq_true] at hf
  refine ⟨_, g, K, hr, hf.1, hl, ?_⟩
  have h2 := hf.2
  split at h2
  · rename_i q g' hx; have := of_decide_eq_true h2; subst this; exact ⟨g', hx⟩
  · cases h2

/-! ### C50 -/

/-- C50: in a debug build the counter equals the number of blocks obtained in blink mode and not yet given back; it cannot
overflow. -/
theorem C50_counter {g0 g : GS} {K : GBook} (h : GReach g0 g K) (hd : g0.w.debug = true) :
    g.allocations = K.blink.length ∧ g.allocations + 1 < USIZE := by
  obtain ⟨cs, D, hI⟩ := h.inv
  have h1 := hI.cnt
  rw [hI.dbg, if_pos hd] at h1
  refine ⟨h1, ?_⟩
  rw [h1]
  exact count_bound hI.inner.arena hI.inner.led fun b hb => (hI.sz b hb).1

/-- C50: `reset` and `direct_mode` panic exactly if this is a debug build and some block obtained in blink mode is outstanding;
then they change nothing. -/
theorem C50_panics_iff {g0 g : GS} {K : GBook} {op : GOp} (h : GReach g0 g K) (hop : op = .reset ∨ op = .directMode) :
    (gstep g op = .ok (.panicked, g) ∧ g0.w.debug = true ∧ K.blink ≠ []) ∨
    ((∃ g', gstep g op = .ok (.unit, g')) ∧ ¬ (g0.w.debug = true ∧ K.blink ≠ [])) := by
  obtain ⟨cs, D, hI⟩ := h.inv
  rcases hI.resetCases with ⟨h1, h2, he⟩ | ⟨h1, g', cs', he, _⟩
  · left
    refine ⟨?_, hI.dbg ▸ h1, h2⟩
    rcases hop with rfl | rfl
    · exact he
    · unfold gstep; dsimp only; rw [ebind_ok' he]; rfl
  · right
    refine ⟨?_, by rw [← hI.dbg]; exact h1⟩
    rcases hop with rfl | rfl
    · exact ⟨_, he⟩
    · unfold gstep; dsimp only; rw [ebind_ok' he]; exact ⟨_, rfl⟩

/-- Non-vacuity: two blocks outstanding, the call panics; both deallocated, it does not. -/
example : (∃ g0 g K, GReach g0 g K ∧ g0.w.debug = true ∧ 2 ≤ K.blink.length ∧ gstep g .directMode = .ok (.panicked, g)) ∧
    ∃ g0 g K, GReach g0 g K ∧ g0.w.debug = true ∧ K.direct ≠ [] ∧ K.blinkMode = true ∧ ∃ g', gstep g .directMode = .ok (.unit, g') := by
  constructor
  · obtain ⟨g, K, hr, hl, hf⟩ := of_gdemoAt (sizes := [24, 5, 4096]) (debug := true)
      (ops := gdemoOps) (op := .directMode) (f := fun _ K x => decide (2 ≤ K.blink.length)) (by decide +kernel)
    have hf := of_decide_eq_true hf
    refine ⟨_, g, K, hr, rfl, hf, ?_⟩
    rcases C50_panics_iff hr (.inr rfl) with h | h
    · exact h.1
    · exact absurd ⟨rfl, by rintro he; rw [he] at hf; simp at hf⟩ h.2
  · obtain ⟨g, K, hr, hl, hf⟩ := of_gdemoAt (sizes := [24, 5, 4096]) (debug := true)
      (ops := gdemoOps ++ [.dealloc 196672 ⟨30, 2⟩, .dealloc 196656 ⟨16, 16⟩]) (op := .directMode)
      (f := fun _ K x => decide (K.direct ≠ []) && K.blinkMode && match x with
        | .ok (.unit, _) => true
        | _ => false) (by decide +kernel)
    simp only [Bool.and_eq_true, decide_eq_true_eq] at hf
    refine ⟨_, g, K, hr, rfl, hf.1.1, hf.1.2, ?_⟩
    have h2 := hf.2
    split at h2
    · rename_i g' hx; exact ⟨g', hx⟩
    · cases h2

/-! ### C51 -/

/-- C51: at any time the memory held from the underlying allocator is exactly: what the `BlinkAlloc` obtained and did not give back,
the blocks obtained directly and not deallocated, and what others held before. The directly obtained blocks are the
program's. -/
theorem C51_held {g0 g : GS} {K : GBook} (h : GReach g0 g K) :
    g.w.held.Perm (openBlocks g.w.log ++ openBlocks g.dlog ++ g0.w.held) ∧
    K.direct.Perm ((openBlocks g.dlog).map fun d => granted d.addr d.req) ∧ FreesOK g.dlog ∧ FreesOK g.w.log := by
  obtain ⟨cs, D, hI⟩ := h.inv
  refine ⟨?_, ?_, hI.dlg.2, hI.inner.log.2⟩
  · rw [hI.inner.log.1, hI.dlg.1, List.append_assoc]; exact hI.inner.arena.perm
  · rw [hI.dlg.1]; exact hI.perm

/-- C51: `reset` and `direct_mode` give back all chunks of the `BlinkAlloc` but the newest; memory obtained in direct mode stays held
and keeps its contents. -/
theorem C51_direct_mode {g0 g g' : GS} {K : GBook} {op : GOp} (h : GReach g0 g K) (hop : op = .reset ∨ op = .directMode)
    (hs : gstep g op = .ok (.unit, g')) :
    openBlocks g'.w.log = (openBlocks g.w.log).take 1 ∧ g'.dlog = g.dlog ∧
    g'.w.held.Perm ((openBlocks g.w.log).take 1 ++ openBlocks g.dlog ++ g0.w.held) ∧
    (∀ b ∈ K.direct, ∀ x, b.Has x → g'.w.mem x = g.w.mem x) ∧
    g'.enabled = (if op = .directMode then false else g.enabled) := by
  obtain ⟨cs, D, hI⟩ := h.inv
  rcases hI.resetCases with ⟨h1, h2, he⟩ | ⟨h1, g1, cs', he, hst, hd, hen, hi, hw, hcs, hk⟩
  · exfalso
    rcases hop with rfl | rfl
    · unfold gstep at hs; dsimp only at hs; rw [he] at hs; cases hs
    · unfold gstep at hs; dsimp only at hs; rw [ebind_ok' he] at hs; cases hs
  · have e : openBlocks g1.w.log = (openBlocks g.w.log).take 1 := by
      rw [hi.inner.log.1, hI.inner.log.1, hcs]
      cases cs <;> rfl
    have hp : g1.w.held.Perm ((openBlocks g.w.log).take 1 ++ openBlocks g.dlog ++ g0.w.held) := by
      rw [← e, hi.inner.log.1, hI.dlg.1, List.append_assoc]
      exact hi.inner.arena.perm
    rcases hop with rfl | rfl
    · unfold gstep at hs; dsimp only at hs; rw [he] at hs; cases hs
      exact ⟨e, hd, hp, hk, by rw [if_neg (by simp)]; exact hen⟩
    · unfold gstep at hs; dsimp only at hs; rw [ebind_ok' he] at hs; cases hs
      exact ⟨e, hd, hp, hk, by rw [if_pos rfl]⟩

/-- C51: `blink_mode` leaves everything in place. -/
theorem C51_blink_mode {g : GS} : ∃ g', gstep g .blinkMode = .ok (.unit, g') ∧ g'.w = g.w ∧ g'.dlog = g.dlog ∧ g'.a = g.a ∧
    g'.allocations = g.allocations ∧ g'.enabled = true := ⟨_, rfl, rfl, rfl, rfl, rfl, rfl⟩

/-- C51: the mode is the one selected last. -/
theorem C51_mode {g0 g : GS} {K : GBook} (h : GReach g0 g K) : g.enabled = K.blinkMode := by
  obtain ⟨cs, D, hI⟩ := h.inv
  exact hI.mode

/-- C51: when the global allocator goes out of scope, all chunks are given back; only blocks obtained directly and not deallocated
stay. -/
theorem C51_drop {g0 g : GS} {K : GBook} (h : GReach g0 g K) :
    ∃ g', g.drop = .ok g' ∧ openBlocks g'.w.log = [] ∧ g'.w.held.Perm (openBlocks g.dlog ++ g0.w.held) ∧
      ∀ b ∈ K.direct, ∀ x, b.Has x → g'.w.mem x = g.w.mem x := by
  obtain ⟨cs, D, hI⟩ := h.inv
  rcases hI.call .resetFinal with ⟨e, hb, he⟩ | ⟨r, g', cs', he, hst, h1, h2, h3, h4, hr, hi, hk⟩
  · obtain ⟨s', cs', he', _⟩ := hI.inner.resetFinal
    unfold GS.inner at he
    rw [ebind_ok' he'] at he
    cases he
  · obtain ⟨rfl, hw, rfl⟩ := hr
    have hI' := hi _ .resetFinal
    refine ⟨g', by unfold GS.drop; rw [ebind_ok' he]; rfl, hI'.log.1, ?_, hk ⟨_, .resetFinal⟩ (by simp)⟩
    rw [hI.dlg.1]
    exact hI'.arena.perm

/-- Non-vacuity: a release build switches back to direct mode with blocks of blink mode outstanding in two chunks, and with direct
blocks. -/
example : ∃ g0 g K, GReach g0 g K ∧ 2 ≤ (openBlocks g.w.log).length ∧ 2 ≤ K.direct.length ∧ 3 ≤ K.blink.length ∧
    ∃ g', gstep g .directMode = .ok (.unit, g') := by
  obtain ⟨g, K, hr, hl, hf⟩ := of_gdemoAt (sizes := [24, 5, 4096, 60000]) (debug := false)
    (ops := gdemoOps ++ [.alloc ⟨5000, 8⟩]) (op := .directMode)
    (f := fun g K x => decide (2 ≤ (openBlocks g.w.log).length) && decide (2 ≤ K.direct.length) && decide (3 ≤ K.blink.length) &&
      match x with
      | .ok (.unit, _) => true
      | _ => false) (by decide +kernel)
  simp only [Bool.and_eq_true, decide_eq_true_eq] at hf
  refine ⟨_, g, K, hr, hf.1.1.1, hf.1.1.2, hf.1.2, ?_⟩
  have h2 := hf.2
  split at h2
  · rename_i g' hx; exact ⟨g', hx⟩
  · cases h2

end Blink
