import Verif.Proofs.GlobalSyncProg
import Verif.Spec.GlobalSyncExec
import Verif.Props.Sync
/-
  Properties C48 to C51 of the global allocator shared by threads (src/global/sync.rs).
-/
namespace Blink

/-- A schedule used in examples. Two threads obtain blocks in direct mode; in blink mode both allocate at the same time, one stores
into its block; thread 0 is then in the middle of a `realloc` while thread 1 has begun to deallocate its block. -/
def gsdemoActs : List GAct :=
  [.call 0 (.alloc ⟨24, 8⟩), .call 1 (.allocZeroed ⟨5, 1⟩)] ++ ggoes 0 1 ++ ggoes 1 1 ++
  [.blinkMode, .call 0 (.alloc ⟨10, 2⟩), .call 1 (.allocZeroed ⟨4, 4⟩)] ++ ggoes 0 6 ++ [.write 196640 (.raw 7)] ++ ggoes 1 10 ++
  [.call 0 (.realloc 196640 ⟨10, 2⟩ 30)] ++ ggoes 0 5 ++ [.call 1 (.dealloc 196652 ⟨4, 4⟩)] ++ ggoes 1 1

/-! ### C48 -/

/-- C48 as wished for: in direct mode no step of a legal history does anything the underlying allocator forbids. -/
def C48_threads_full : Prop :=
  ∀ (g0 g : GSS) (K : GSBook) (a : GAct) (e : Fault), GSReach g0 g K → K.blinkMode = false → GSLegal K a →
    gsstep g a = .error e → GSBad g K a e

/-- C48 is false for threads as well: the step of a `realloc` from 24 to 48 bytes calls `shrink` with a larger layout. -/
theorem C48_threads_full_false : ¬ C48_threads_full := by
  intro h
  obtain ⟨g, K, hr, hl, hf⟩ := of_gsdemoAt (sizes := [24, 100]) (debug := true)
    (as := [.call 0 (.alloc ⟨24, 8⟩), .go 0 fresh, .call 0 (.realloc 65536 ⟨24, 8⟩ 48)]) (a := .go 0 fresh)
    (f := fun _ K x => !K.blinkMode && match x with
      | .error e => decide (e = .ub "shrink to a larger layout")
      | .ok _ => false) (by decide +kernel)
  simp only [Bool.and_eq_true, Bool.not_eq_true'] at hf
  obtain ⟨hm, hf⟩ := hf
  cases hx : gsstep g (.go 0 fresh) with
  | ok y => rw [hx] at hf; cases hf
  | error e =>
    rw [hx] at hf
    have he : e = .ub "shrink to a larger layout" := of_decide_eq_true hf
    subst he
    rcases h _ g K _ _ hr hm hl hx with ⟨l, sl, hc, _⟩ | ⟨_, _, _, _, _, _, _, _, _, l, sl, hc, _⟩ <;> cases hc

/-- C48, the defect in full: in direct mode *every* `realloc` to a different size (that makes a layout at all) ends in a violation of
the contract of the underlying allocator, whatever the other threads do. -/
theorem C48_threads_realloc_always_wrong {g0 g : GSS} {K : GSBook} {t p n : Nat} {l : Layout} {ob : Option Owned} (h : GSReach g0 g K)
    (hm : K.blinkMode = false) (hb : K.busy t = some (.realloc p l n, ob)) (hn : n ≠ l.size) (hs : n + l.align ≤ ISIZE) (ch : Choice) :
    ∃ why, gsstep g (.go t ch) = .error (.ub why) := by
  obtain ⟨cs, D, I, B, hI⟩ := h.inv
  exact hI.uncalm hm hb hn hs

/-- What thread `t`, inside a call in direct mode, does next. -/
theorem GSInv.direct_pc {g0 g cs D K I B} (h : GSInv g0 g cs D K I B) (hm : K.blinkMode = false) {t c ob} (hb : K.busy t = some (c, ob)) :
    g.pcs t = .direct c ∨ ∃ p l n, c = .realloc p l n ∧ ISIZE < n + l.align ∧ g.pcs t = .fin c .err := by
  have ht := h.thr t
  rw [hb, hm] at ht
  generalize g.pcs t = pc at ht
  generalize I.busy t = ibz at ht
  cases ht with
  | dAlloc => exact .inl rfl
  | dZeroed => exact .inl rfl
  | dDealloc => exact .inl rfl
  | dRealloc => exact .inl rfl
  | finReallocErr _ hl => exact .inr ⟨_, _, _, rfl, hl rfl, rfl⟩
  | _ => exact absurd (show false = true by assumption) (by simp)

/-- Calls in direct mode. -/
theorem GSInv.direct_calls {g0 g : GSS} {K : GSBook} {t : Nat} {c : GCall} {ob : Option Owned} {ch : Choice} {cs D I B} (hI : GSInv g0 g cs D K I B)
    (hm : K.blinkMode = false) (hb : K.busy t = some (c, ob))
    (hc : ∀ p l n, c = .realloc p l n → n = l.size ∨ ISIZE < n + l.align) :
    (∃ e, GSBad g K (.go t ch) e ∧ gsstep g (.go t ch) = .error e) ∨
    ∃ r g', gsstep g (.go t ch) = .ok (some (some r, g')) ∧
      (SForwarded c r g g' ∨ (∃ p l n, c = .realloc p l n ∧ ISIZE < n + l.align ∧ r = .ptr 0 ∧ g'.s = g.s ∧ g'.dlog = g.dlog)) ∧
      (∀ b ∈ K.all, ∀ x, b.Has x → g'.s.w.mem x = g.s.w.mem x) ∧
      (∀ p l n q, c = .realloc p l n → r = .ptr q → q ≠ 0 → ∀ i, i < min l.size n → g'.s.w.mem (q + i) = K.snap t (p + i)) ∧
      (∀ p l n b, c = .realloc p l n → r = .ptr 0 → ob = some b → ∀ x, b.Has x → g'.s.w.mem x = K.snap t x) ∧
      (∀ l q, c = .allocZeroed l → r = .ptr q → q ≠ 0 → ∀ i, i < l.size → g'.s.w.mem (q + i) = .raw 0) := by
  have hob : ∀ p l n, c = .realloc p l n → ∃ b, ob = some b := by
    rintro p l n rfl
    have ht := hI.thr t
    rw [hb] at ht
    generalize g.pcs t = pc at ht
    generalize I.busy t = ibz at ht
    cases ht <;> exact ⟨_, rfl⟩
  suffices key : GSGood g0 g K (.go t ch) (gsstep g (.go t ch)) ∧ gsstep g (.go t ch) ≠ .ok none ∧
      ∀ r g', gsstep g (.go t ch) = .ok (some (r, g')) → ∃ q, r = some q ∧ (SForwarded c q g g' ∨
        (∃ p l n, c = .realloc p l n ∧ ISIZE < n + l.align ∧ q = .ptr 0 ∧ g'.s = g.s ∧ g'.dlog = g.dlog)) by
    obtain ⟨hgood, hne, hf⟩ := key
    rcases hgood with ⟨e, hbad, he⟩ | he | ⟨r, g', he, hr, _, _⟩
    · exact .inl ⟨e, hbad, he⟩
    · exact absurd he hne
    · obtain ⟨q, rfl, hq⟩ := hf r g' he
      have hret := hr.ret t ch c ob q rfl rfl hb
      refine .inr ⟨q, g', he, hq, fun b hb' x hx => hr.keep b hb' (by rintro ⟨⟩) x hx (by rintro v ⟨⟩), ?_, ?_, ?_⟩
      · rintro p l n q' hc' rfl hq0
        obtain ⟨b, rfl⟩ := hob p l n hc'
        subst hc'
        exact hret.1 hq0
      · rintro p l n b rfl rfl rfl
        exact hret.2 rfl
      · rintro l q' rfl rfl hq0
        exact hret hq0
  rcases hI.direct_pc hm hb with hpc | ⟨p, l, n, rfl, hn, hpc⟩
  · have hd : GSDirect g0 g K t ch c := by
      refine hI.goDirect hpc fun p l n he => (hc p l n he).resolve_right fun hn => ?_
      subst he
      have ht := hI.thr t
      rw [hb, hpc] at ht
      generalize I.busy t = ibz at ht
      cases ht
      omega
    refine ⟨hd.1, ?_, ?_⟩
    · show ggo g t ch ≠ _
      unfold ggo
      rw [hpc]
      dsimp only
      cases hbp : g.bypass (baseFor c) with
      | error e => rintro ⟨⟩
      | ok y => rintro ⟨⟩
    · intro r g' he
      obtain ⟨q, h1, h2⟩ := hd.2 r g' he
      exact ⟨q, h1, .inl h2⟩
  · have hgo : ggo g t ch = .ok (some (some (.ptr 0), ({ g with allocations := g.counted (.realloc p l n) .err } : GSS).setPc t .idle)) := by
      unfold ggo; rw [hpc]; rfl
    refine ⟨hI.goFin hpc, ?_, ?_⟩
    · show ggo g t ch ≠ _
      rw [hgo]; rintro ⟨⟩
    · intro r g' he
      have he : ggo g t ch = _ := he
      rw [hgo] at he
      cases he
      exact ⟨_, rfl, .inr ⟨p, l, n, rfl, hn, rfl, rfl, rfl⟩⟩

/-- C48, what holds: in direct mode every other call succeeds or fails as the underlying allocator does, in one step. The request is
passed on once, as it is, and the answer is returned; a `realloc` to a size that makes no layout returns null and does nothing. No
byte of anybody's block changes; `realloc` keeps the contents (`K.snap t` is the memory when the call was made) and `alloc_zeroed`
yields zeros.
Missing: `realloc` to another size, for which this is false. -/
theorem C48_threads_partial {g0 g : GSS} {K : GSBook} {t : Nat} {c : GCall} {ob : Option Owned} {ch : Choice} (h : GSReach g0 g K)
    (hm : K.blinkMode = false) (hb : K.busy t = some (c, ob))
    (hc : ∀ p l n, c = .realloc p l n → n = l.size ∨ ISIZE < n + l.align) :
    (∃ e, GSBad g K (.go t ch) e ∧ gsstep g (.go t ch) = .error e) ∨
    ∃ r g', gsstep g (.go t ch) = .ok (some (some r, g')) ∧
      (SForwarded c r g g' ∨ (∃ p l n, c = .realloc p l n ∧ ISIZE < n + l.align ∧ r = .ptr 0 ∧ g'.s = g.s ∧ g'.dlog = g.dlog)) ∧
      (∀ b ∈ K.all, ∀ x, b.Has x → g'.s.w.mem x = g.s.w.mem x) ∧
      (∀ p l n q, c = .realloc p l n → r = .ptr q → q ≠ 0 → ∀ i, i < min l.size n → g'.s.w.mem (q + i) = K.snap t (p + i)) ∧
      (∀ p l n b, c = .realloc p l n → r = .ptr 0 → ob = some b → ∀ x, b.Has x → g'.s.w.mem x = K.snap t x) ∧
      (∀ l q, c = .allocZeroed l → r = .ptr q → q ≠ 0 → ∀ i, i < l.size → g'.s.w.mem (q + i) = .raw 0) :=
  let ⟨_, _, _, _, hI⟩ := h.inv
  hI.direct_calls hm hb hc

/-- C48: beginning a call in direct mode asks nothing of anybody yet. -/
theorem C48_threads_call {g0 g : GSS} {K : GSBook} {t : Nat} {c : GCall} (h : GSReach g0 g K) (hm : K.blinkMode = false)
    (hl : GSLegal K (.call t c)) :
    ∃ g', gsstep g (.call t c) = .ok (some (none, g')) ∧ g'.s = g.s ∧ g'.dlog = g.dlog ∧ g'.allocations = g.allocations := by
  obtain ⟨cs, D, I, B, hI⟩ := h.inv
  have hen : g.enabled = false := hI.mode.trans hm
  have hb : K.busy t = none := by cases hl <;> assumption
  have hpc := (hI.busy_none hb).1
  unfold gsstep
  dsimp only
  rw [if_pos hpc]
  unfold GSS.begin
  rw [hen]
  cases hl with
  | alloc => exact ⟨_, rfl, rfl, rfl, rfl⟩
  | allocZeroed => exact ⟨_, rfl, rfl, rfl, rfl⟩
  | dealloc _ ho hi =>
    unfold GBook.cur at ho
    rw [hm] at ho
    dsimp only
    rw [if_neg (hI.directIs ho hi).1]
    exact ⟨_, rfl, rfl, rfl, rfl⟩
  | realloc =>
    dsimp only
    split <;> exact ⟨_, rfl, rfl, rfl, rfl⟩

/-- Non-vacuity: in direct mode, after a time in blink mode, a thread reallocates a block to its own size while another is inside
`alloc`. -/
example : ∃ g0 g K ob, GSReach g0 g K ∧ K.blinkMode = false ∧ K.busy 1 = some (.alloc ⟨7, 1⟩, none) ∧
    K.busy 0 = some (.realloc 65536 ⟨24, 8⟩ 24, ob) ∧ 1 ≤ K.direct.length ∧
    ∃ q g', gsstep g (.go 0 fresh) = .ok (some (some (.ptr q), g')) ∧ q ≠ 0 := by
  obtain ⟨g, K, hr, hl, hf⟩ := of_gsdemoAt (sizes := [24, 5, 4096, 30]) (debug := true)
    (as := gsdemoActs ++ ggoes 1 3 ++ ggoes 0 12 ++ [.call 1 (.dealloc 196656 ⟨30, 2⟩)] ++ ggoes 1 4 ++ [.directMode,
      .call 0 (.realloc 65536 ⟨24, 8⟩ 24), .call 1 (.alloc ⟨7, 1⟩)]) (a := .go 0 fresh)
    (f := fun _ K x => !K.blinkMode && decide (K.busy 1 = some (.alloc ⟨7, 1⟩, none)) &&
      (match K.busy 0 with
      | some (c, _) => decide (c = .realloc 65536 ⟨24, 8⟩ 24)
      | none => false) && decide (1 ≤ K.direct.length) && match x with
      | .ok (some (some (.ptr q), _)) => decide (q ≠ 0)
      | _ => false) (by decide +kernel)
  simp only [Bool.and_eq_true, Bool.not_eq_true', decide_eq_true_eq] at hf
  obtain ⟨⟨⟨⟨h1, h2⟩, h3⟩, h4⟩, h5⟩ := hf
  split at h3
  · rename_i c ob hc
    have := of_decide_eq_true h3
    subst this
    refine ⟨_, g, K, ob, hr, h1, h2, hc, h4, ?_⟩
    split at h5
    · rename_i q g' hx; exact ⟨q, g', hx, of_decide_eq_true h5⟩
    · cases h5
  · cases h3

/-! ### C49 -/

/-- C49: at every moment of every schedule the blocks in the hands of the program are pairwise disjoint, whatever mode they were
obtained in. -/
theorem C49_threads_no_overlap {g0 g : GSS} {K : GSBook} (h : GSReach g0 g K) : K.all.Pairwise Owned.Apart := by
  obtain ⟨cs, D, I, B, hI⟩ := h.inv
  exact hI.all_apart

/-- C49: each such block is not null, aligned, as long as requested, and lies in memory held from the underlying allocator. -/
theorem C49_threads_layout_and_memory {g0 g : GSS} {K : GSBook} (h : GSReach g0 g K) {b : Owned} (hb : b ∈ K.all) :
    0 < b.addr ∧ b.addr % b.align = 0 ∧ b.len = b.size ∧ 0 < b.size ∧ g.s.w.accessible b.addr b.size = true := by
  obtain ⟨cs, D, I, B, hI⟩ := h.inv
  rcases List.mem_append.mp hb with hb | hb
  · have hs := hI.sz b hb
    have he := hI.blink_lok.each b hb
    refine ⟨hI.inner.pos (hI.blink_mem hb), he.2.2.1, hs.2, hs.1, ?_⟩
    obtain ⟨c, hc, h1, h2⟩ := he.2.2.2
    have := (hI.inner.arena.ok c hc).lo
    have := (hI.inner.arena.ok c hc).hi
    exact accessible_of (hI.inner.arena.mem_held hc) (by simp only [Chunk.blk]; omega) (by simp only [Chunk.blk]; omega)
  · obtain ⟨d, hd, rfl⟩ := hI.direct_mem hb
    have hg := hI.good d hd
    exact ⟨hI.direct_pos hd, hg.al, rfl, hg.pos, accessible_of (hI.dinv.mem hd) (Nat.le_refl _) (by
      have := hg.len; simp only [BaseBlk.own, granted]; omega)⟩

/-- C49: in blink mode every action of a legal history can be carried out, unless the underlying allocator breaks its contract in that
very step, or the thread that is to move is not inside a call or waits for the lock, which another thread inside a call has. -/
theorem C49_threads_no_fault {g0 g : GSS} {K : GSBook} {a : GAct} (h : GSReach g0 g K) (hm : K.blinkMode = true) (hl : GSLegal K a) :
    (∃ r g' K', gsstep g a = .ok (some (r, g')) ∧ GSAfter g.s.w.mem K a r K') ∨
    (∃ e, BadAnswer g.s.w e ∧ gsstep g a = .error e) ∨
    (gsstep g a = .ok none ∧ ∃ t ch, a = .go t ch ∧
      (K.busy t = none ∨ ∃ u, u ≠ t ∧ K.busy u ≠ none ∧ (u ∈ g.s.readers ∨ g.s.writer = some u))) := by
  obtain ⟨cs, D, I, B, hI⟩ := h.inv
  rcases hI.step hl (by cases a <;> first | trivial | exact .inl hm) with ⟨e, hb, he⟩ | hn | ⟨r, g', he, _, ⟨K', ha⟩, _⟩
  · rcases hb with hb | ⟨_, _, _, _, _, _, _, hm', _⟩
    · exact .inr (.inl ⟨e, hb, he⟩)
    · rw [hm] at hm'; cases hm'
  · refine .inr (.inr ⟨hn, ?_⟩)
    cases a with
    | go t ch =>
      refine ⟨t, ch, rfl, ?_⟩
      by_cases hb : K.busy t = none
      · exact .inl hb
      · obtain ⟨u, h1, h2, h3, _⟩ := hI.blocked hn hb
        exact .inr ⟨u, h1, h2, h3⟩
    | call t c =>
      exfalso
      have hb : K.busy t = none := by cases hl <;> assumption
      obtain ⟨hpc, hib⟩ := hI.busy_none hb
      have hidle := (hI.inner.busy_none hib).1
      have hent : ∀ i : Call, g.enter t c i ≠ .ok none := by
        intro i
        unfold GSS.enter
        simp only [sstep]
        rw [if_pos hidle]
        rintro ⟨⟩
      unfold gsstep GSS.begin at hn
      dsimp only at hn
      rw [if_pos hpc] at hn
      cases c <;> dsimp only at hn <;> (repeat' split at hn) <;> first | cases hn | exact hent _ hn
    | write => cases hn
    | reset => cases hl with
      | reset hq =>
        exfalso
        rcases hI.resetCases hq with ⟨_, _, he⟩ | ⟨_, g', _, _, he, _⟩ <;> exact absurd (he.symm.trans hn) (by simp)
    | blinkMode => cases hn
    | directMode => cases hl with
      | directMode hq =>
        exfalso
        unfold gsstep at hn
        dsimp only at hn
        rcases hI.resetCases hq with ⟨_, _, he⟩ | ⟨_, g', _, _, he, _⟩ <;> (rw [ebind_ok' he] at hn; cases hn)
  · exact .inl ⟨r, g', K', he, ha⟩

/-- C49: there is no deadlock: while some thread is inside a call, some thread inside a call can move. -/
theorem C49_threads_somebody_moves {g0 g : GSS} {K : GSBook} (h : GSReach g0 g K) {t : Nat} (hb : K.busy t ≠ none) (ch : Choice) :
    ∃ u, K.busy u ≠ none ∧ gsstep g (.go u ch) ≠ .ok none := by
  obtain ⟨cs, D, I, B, hI⟩ := h.inv
  by_cases hn : gsstep g (.go t ch) = .ok none
  · obtain ⟨u, _, h1, _, h2⟩ := hI.blocked hn hb
    exact ⟨u, h1, h2 ch⟩
  · exact ⟨t, hb, hn⟩

/-- C49: in blink mode a thread inside a call comes back if it runs alone while nobody else has the lock (or meets a broken answer of
the underlying allocator). -/
theorem C49_threads_finishes {g0 g : GSS} {K : GSBook} (h : GSReach g0 g K) (hm : K.blinkMode = true) {t : Nat} (hb : K.busy t ≠ none)
    (hf : g.s.Free t) :
    ∃ n, (∃ r g', gsolo n g t = .ok (some (r, g'))) ∨ ∃ e w, gsolo n g t = .error e ∧ w.oracle = g0.s.w.oracle ∧ BadAnswer w e := by
  obtain ⟨cs, D, I, B, hI⟩ := h.inv
  exact hI.finishes hm hb hf

/-- C49: no step of anybody changes a byte of a block in the hands of the program, except a store to that byte by its owner, and
resets as far as blocks of blink mode are concerned. -/
theorem C49_threads_keeps {g0 g g' : GSS} {K : GSBook} {a : GAct} {r : Option GResp} (h : GSReach g0 g K) (hl : GSLegal K a)
    (hs : gsstep g a = .ok (some (r, g'))) {b : Owned} (hb : b ∈ K.all) (hn : a = .reset ∨ a = .directMode → b ∈ K.direct) {x : Nat}
    (hx : b.Has x) (hw : ∀ v, a ≠ .write x v) : g'.s.w.mem x = g.s.w.mem x := by
  obtain ⟨cs, D, I, B, hI⟩ := h.inv
  rcases hI.step hl (hI.calm hs) with ⟨e, _, he⟩ | he | ⟨r1, g1, he, hr, _⟩
  · rw [he] at hs; cases hs
  · rw [he] at hs; cases hs
  · rw [he] at hs; cases hs
    refine hr.keep b hb (fun ha => hn ?_) x hx hw
    cases a <;> first | exact .inl rfl | exact .inr rfl | cases ha

/-- While a thread's call has not returned, the program's book about it stays. -/
theorem GSRun.snap {g1 K1 tr g2 K2} (h : GSRun g1 K1 tr g2 K2) {t : Nat} {x} (hb : K1.busy t = some x)
    (hno : ∀ ch r, (GAct.go t ch, some r) ∉ tr) : K2.busy t = some x ∧ K2.snap t = K1.snap t := by
  induction h with
  | nil => exact ⟨hb, rfl⟩
  | @snoc tr g K a r g' K' hr hl hs ha ih =>
    obtain ⟨h1, h2⟩ := ih fun ch r hm => hno ch r (List.mem_append_left _ hm)
    have hne : ∀ {u c}, a = .call u c → t ≠ u := by
      rintro u c rfl rfl
      have hb' : K.busy t = none := by cases hl <;> assumption
      rw [h1] at hb'; cases hb'
    cases ha with
    | alloc => dsimp only; rw [put_ne _ _ (hne rfl), put_ne _ _ (hne rfl)]; exact ⟨h1, h2⟩
    | allocZeroed => dsimp only; rw [put_ne _ _ (hne rfl), put_ne _ _ (hne rfl)]; exact ⟨h1, h2⟩
    | dealloc => dsimp only; rw [put_ne _ _ (hne rfl), put_ne _ _ (hne rfl)]; exact ⟨h1, h2⟩
    | realloc => dsimp only; rw [put_ne _ _ (hne rfl), put_ne _ _ (hne rfl)]; exact ⟨h1, h2⟩
    | @ret u ch c ob r hb' =>
      have hne : t ≠ u := fun he => by subst he; exact hno ch r (by simp)
      dsimp only; rw [put_ne _ _ hne]; exact ⟨h1, h2⟩
    | _ => exact ⟨h1, h2⟩

/-- C49: a `realloc` that returns a pointer returns a block holding the old contents as they were when the call was made, as far as both
sizes reach; a `realloc` that returns null leaves the old block to its owner, with its contents; whatever the other threads do between
call and return. -/
theorem C49_threads_realloc {g0 g g1 g2 g3 : GSS} {K K1 K2 : GSBook} (h : GSReach g0 g K) {t p n q : Nat} {l : Layout}
    (hl : GSLegal K (.call t (.realloc p l n))) (hs : gsstep g (.call t (.realloc p l n)) = .ok (some (none, g1)))
    (ha : GSAfter g.s.w.mem K (.call t (.realloc p l n)) none K1) {tr} (hr : GSRun g1 K1 tr g2 K2)
    (hno : ∀ ch r, (GAct.go t ch, some r) ∉ tr) {ch : Choice} (hret : gsstep g2 (.go t ch) = .ok (some (some (.ptr q), g3))) :
    (q ≠ 0 → (∀ i, i < min l.size n → g3.s.w.mem (q + i) = g.s.w.mem (p + i)) ∧
      ∃ K3, GSReach g0 g3 K3 ∧ K3.cur = granted q ⟨n, l.align⟩ :: K2.cur) ∧
    (q = 0 → ∃ b ∈ K.cur, b.Is p l ∧ (∀ x, b.Has x → g3.s.w.mem x = g.s.w.mem x) ∧ ∃ K3, GSReach g0 g3 K3 ∧ K3.cur = b :: K2.cur) := by
  obtain ⟨h0, tr0, hr0⟩ := h
  have hr2 := (hr0.snoc hl hs ha).trans hr
  obtain ⟨cs, D, I, B, hI⟩ := GSReach.inv ⟨h0, _, hr2⟩
  cases ha with
  | @realloc _ b _ _ _ ho hi =>
    obtain ⟨hb2, hsn⟩ := hr.snap (t := t) (put_same _ _ _) hno
    dsimp only at hsn
    rw [put_same] at hsn
    have h3 := hr2.snoc .go hret (.ret hb2)
    have hres := ((hI.step_ok .go hret (.ret hb2)).1).ret t ch _ _ _ rfl rfl hb2
    rw [hsn] at hres
    have hcur : ∀ bs, ({ K2 with toGBook := K2.addL bs, busy := put K2.busy t none } : GSBook).cur = bs ++ K2.cur := by
      intro bs
      unfold GBook.cur GBook.addL
      cases hm : K2.blinkMode <;> simp
    refine ⟨fun hq => ⟨hres.1 hq, _, ⟨h0, _, h3⟩, ?_⟩, fun hq => ⟨b, ho, hi, hres.2 hq, _, ⟨h0, _, h3⟩, ?_⟩⟩
    · rw [hcur]; simp [ggets, hq]
    · rw [hcur]; simp [ggets, hq]

/-- C49: when a thread's `alloc_zeroed` returns a pointer, it then owns a block of the requested layout there, full of zeros; `alloc`
likewise without the zeros. -/
theorem C49_threads_alloc {g0 g g' : GSS} {K : GSBook} (h : GSReach g0 g K) {t q : Nat} {ch : Choice} {c : GCall} {l : Layout}
    {ob : Option Owned} (hc : c = .alloc l ∨ c = .allocZeroed l) (hb : K.busy t = some (c, ob))
    (hs : gsstep g (.go t ch) = .ok (some (some (.ptr q), g'))) (hq : q ≠ 0) :
    (∃ K', GSReach g0 g' K' ∧ K'.cur = granted q l :: K.cur) ∧ (c = .allocZeroed l → ∀ i, i < l.size → g'.s.w.mem (q + i) = .raw 0) := by
  obtain ⟨h0, tr, hr⟩ := h
  obtain ⟨cs, D, I, B, hI⟩ := GSReach.inv ⟨h0, _, hr⟩
  refine ⟨⟨_, ⟨h0, _, hr.snoc .go hs (.ret hb)⟩, ?_⟩, ?_⟩
  · have hg : ggets c ob (.ptr q) = [granted q l] := by
      rcases hc with rfl | rfl <;> simp [ggets, hq]
    dsimp only
    rw [hg]
    unfold GBook.cur GBook.addL
    cases hm : K.blinkMode <;> simp
  · rintro rfl
    exact ((hI.step_ok .go hs (.ret hb)).1).ret t ch _ _ _ rfl rfl hb hq

/-! ### C50 -/

/-- C50: in a debug build, while in blink mode, the counter equals the number of blocks obtained in blink mode and not yet given
back, where a block handed over to a call in progress still counts (the counter wraps around; `ts` lists the threads inside). -/
theorem C50_threads_counter {g0 g : GSS} {K : GSBook} (h : GSReach g0 g K) (hd : g0.s.w.debug = true) (hm : K.blinkMode = true) :
    ∃ ts : List Nat, ts.Nodup ∧ (∀ t, t ∉ ts → K.busy t = none) ∧
      g.allocations = (K.blink.length + (ts.filter fun t => (K.busy t).any fun x => x.2.isSome).length) % USIZE := by
  obtain ⟨cs, D, I, B, hI⟩ := h.inv
  obtain ⟨ts, hn, hz, _, _, h3⟩ := hI.fam
  refine ⟨ts, hn, fun t ht => (hz t ht).1, ?_⟩
  have e : ∀ ts : List Nat, (ts.flatMap fun u => lent (K.busy u)).length = (ts.filter fun t => (K.busy t).any fun x => x.2.isSome).length := by
    intro ts
    induction ts with
    | nil => rfl
    | cons t ts ih =>
      rw [List.flatMap_cons, List.length_append, ih, List.filter_cons]
      cases hb : K.busy t with
      | none => simp [lent]
      | some x =>
        obtain ⟨c, ob⟩ := x
        cases ob with
        | none => simp [lent]
        | some b => simp [lent]; omega
  rw [hI.dbg, hd, hm] at h3
  simp only [if_true] at h3
  rw [h3, e]

/-- C50: with nobody inside a call, the counter of a debug build equals the number of blocks obtained in blink mode and not yet given
back, without wrapping around. -/
theorem C50_threads_counter_quiet {g0 g : GSS} {K : GSBook} (h : GSReach g0 g K) (hd : g0.s.w.debug = true) (hq : ∀ t, K.busy t = none) :
    g.allocations = K.blink.length ∧ g.allocations + 1 < USIZE := by
  obtain ⟨cs, D, I, B, hI⟩ := h.inv
  have h1 := (hI.quiet hq).2.2.2.2
  rw [hI.dbg, if_pos hd] at h1
  refine ⟨h1, ?_⟩
  rw [h1]
  exact count_bound hI.inner.arena hI.blink_lok fun b hb => (hI.sz b hb).1

/-- C50: `reset` and `direct_mode`, called with exclusive access, panic exactly if this is a debug build and some block obtained in
blink mode is outstanding; then they change nothing. They never block. -/
theorem C50_threads_panics_iff {g0 g : GSS} {K : GSBook} {a : GAct} (h : GSReach g0 g K) (hq : ∀ t, K.busy t = none)
    (ha : a = .reset ∨ a = .directMode) :
    (gsstep g a = .ok (some (some .panicked, g)) ∧ g0.s.w.debug = true ∧ K.blink ≠ []) ∨
    ((∃ g', gsstep g a = .ok (some (some .unit, g'))) ∧ ¬ (g0.s.w.debug = true ∧ K.blink ≠ [])) := by
  obtain ⟨cs, D, I, B, hI⟩ := h.inv
  rcases hI.resetCases hq with ⟨h1, h2, he⟩ | ⟨h1, g', _, _, he, _⟩
  · left
    refine ⟨?_, hI.dbg ▸ h1, h2⟩
    rcases ha with rfl | rfl
    · exact he
    · unfold gsstep; dsimp only; rw [ebind_ok' he]; rfl
  · right
    refine ⟨?_, by rw [← hI.dbg]; exact h1⟩
    rcases ha with rfl | rfl
    · exact ⟨_, he⟩
    · unfold gsstep; dsimp only; rw [ebind_ok' he]; exact ⟨_, rfl⟩

/-! ### C51 -/

/-- C51: at any time the memory held from the underlying allocator is exactly: what the `SyncBlinkAlloc` obtained and did not give
back, the blocks obtained directly and not deallocated, and what others held before. Direct blocks of the program are among the
second. -/
theorem C51_threads_held {g0 g : GSS} {K : GSBook} (h : GSReach g0 g K) :
    g.s.w.held.Perm (openBlocks g.s.w.log ++ openBlocks g.dlog ++ g0.s.w.held) ∧
    (∀ b ∈ K.direct, ∃ d ∈ openBlocks g.dlog, b = granted d.addr d.req) ∧
    ((∀ t, K.busy t = none) → K.direct.Perm ((openBlocks g.dlog).map fun d => granted d.addr d.req)) ∧
    FreesOK g.dlog ∧ FreesOK g.s.w.log := by
  obtain ⟨cs, D, I, B, hI⟩ := h.inv
  refine ⟨?_, ?_, ?_, hI.dlg.2, hI.inner.log.2⟩
  · rw [hI.inner.log.1, hI.dlg.1, List.append_assoc]; exact hI.inner.arena.perm
  · intro b hb
    rw [hI.dlg.1]
    exact hI.direct_mem hb
  · intro hq
    rw [hI.dlg.1]; exact (hI.quiet hq).2.2.2.1

/-- C51: `reset` and `direct_mode` give back all chunks of the `SyncBlinkAlloc` but the newest; memory obtained in direct mode stays
held and keeps its contents. -/
theorem C51_threads_direct_mode {g0 g g' : GSS} {K : GSBook} {a : GAct} (h : GSReach g0 g K) (hq : ∀ t, K.busy t = none)
    (ha : a = .reset ∨ a = .directMode) (hs : gsstep g a = .ok (some (some .unit, g'))) :
    openBlocks g'.s.w.log = (openBlocks g.s.w.log).take 1 ∧ g'.dlog = g.dlog ∧
    g'.s.w.held.Perm ((openBlocks g.s.w.log).take 1 ++ openBlocks g.dlog ++ g0.s.w.held) ∧
    (∀ b ∈ K.direct, ∀ x, b.Has x → g'.s.w.mem x = g.s.w.mem x) ∧
    g'.enabled = (if a = .directMode then false else g.enabled) := by
  obtain ⟨cs, D, I, B, hI⟩ := h.inv
  rcases hI.resetCases hq with ⟨h1, h2, he⟩ | ⟨h1, g1, I', B', he, hst, hd, hen, hi, hq', hw, hk⟩
  · exfalso
    rcases ha with rfl | rfl
    · unfold gsstep at hs; dsimp only at hs; rw [he] at hs; cases hs
    · unfold gsstep at hs; dsimp only at hs; rw [ebind_ok' he] at hs; cases hs
  · have e : openBlocks g1.s.w.log = (openBlocks g.s.w.log).take 1 := by
      rw [hi.inner.log.1, hI.inner.log.1]
      cases cs <;> rfl
    have hp : g1.s.w.held.Perm ((openBlocks g.s.w.log).take 1 ++ openBlocks g.dlog ++ g0.s.w.held) := by
      rw [← e, hi.inner.log.1, hI.dlg.1, List.append_assoc]
      exact hi.inner.arena.perm
    rcases ha with rfl | rfl
    · unfold gsstep at hs; dsimp only at hs; rw [he] at hs; cases hs
      exact ⟨e, hd, hp, hk, by rw [if_neg (by simp)]; exact hen⟩
    · unfold gsstep at hs; dsimp only at hs; rw [ebind_ok' he] at hs; cases hs
      exact ⟨e, hd, hp, hk, by rw [if_pos rfl]⟩

/-- C51: `blink_mode` leaves everything in place. -/
theorem C51_threads_blink_mode {g : GSS} : ∃ g', gsstep g .blinkMode = .ok (some (some .unit, g')) ∧ g'.s = g.s ∧ g'.dlog = g.dlog ∧
    g'.allocations = g.allocations ∧ g'.enabled = true := ⟨_, rfl, rfl, rfl, rfl, rfl⟩

/-- C51: the mode is the one selected last. -/
theorem C51_threads_mode {g0 g : GSS} {K : GSBook} (h : GSReach g0 g K) : g.enabled = K.blinkMode := by
  obtain ⟨cs, D, I, B, hI⟩ := h.inv
  exact hI.mode

/-- C51: when the global allocator goes out of scope (nobody inside), all chunks are given back; only blocks obtained directly and not
deallocated stay. -/
theorem C51_threads_drop {g0 g : GSS} {K : GSBook} (h : GSReach g0 g K) (hq : ∀ t, K.busy t = none) :
    ∃ g', g.drop = .ok (some g') ∧ openBlocks g'.s.w.log = [] ∧ g'.s.w.held.Perm (openBlocks g.dlog ++ g0.s.w.held) ∧
      ∀ b ∈ K.direct, ∀ x, b.Has x → g'.s.w.mem x = g.s.w.mem x := by
  obtain ⟨cs, D, I, B, hI⟩ := h.inv
  obtain ⟨q1, q2, q3, q4, q5⟩ := hI.quiet hq
  obtain ⟨_, hi⟩ := resetFinal_spec (m := 0) hI.inner.arena
  have h1 := freeAll_fields g.s.w cs
  have hlog : LogInv (freeAll g.s.w cs).log [] := by
    unfold LogInv
    rw [h1.2.2.2.2]
    exact log_free (pre := []) hI.inner.log.1 hI.inner.log.2 hI.inner.arena.ok (by simp)
  have hs : sstep g.s .resetFinal = .ok (some (none, { g.s with w := freeAll g.s.w cs, root := 0, seen := [] })) := by
    simp only [sstep, resetStep]
    rw [ebind_ok' (by rw [hI.inner.root]; exact arenaReset_all hI.inner.arena)]; rfl
  refine ⟨_, by unfold GSS.drop; rw [ebind_ok' hs]; rfl, hlog.1, ?_, ?_⟩
  · rw [hI.dlg.1]
    exact hi.perm
  · intro b hb x hx
    obtain ⟨d, hd, rfl⟩ := hI.direct_mem hb
    exact OpRes.outside (m := 0) (L := []) (op := .resetFinal) (r := .unit) hI.inner.arena hi .resetFinal ⟨rfl, rfl, rfl⟩ (by simp)
      (hI.direct_out hd hx) (by simp)

/-! ### Non-vacuity -/

/-- For C49 and C50: in blink mode one thread is in the middle of `realloc`, copying a byte that its owner had stored, another in
`dealloc`; direct blocks are around; the counter still counts the two blocks handed over. -/
example : ∃ g0 g K, GSReach g0 g K ∧ K.blinkMode = true ∧ K.blink.length = 0 ∧ K.direct.length = 2 ∧ g0.s.w.debug = true ∧
    K.busy 0 = some (.realloc 196640 ⟨10, 2⟩ 30, some ⟨196640, 10, 10, 2⟩) ∧ K.busy 1 = some (.dealloc 196652 ⟨4, 4⟩, some ⟨196652, 4, 4, 4⟩) ∧
    g.allocations = 2 ∧ g.s.w.mem 196640 = .raw 7 ∧ 0 ∈ g.s.readers ∧ 1 ∈ g.s.readers := by
  obtain ⟨g, K, hr, hl, hf⟩ := of_gsdemoAt (sizes := [24, 5, 4096]) (debug := true) (as := gsdemoActs) (a := .go 0 fresh)
    (f := fun g K _ => K.blinkMode && decide (K.blink.length = 0) && decide (K.direct.length = 2) &&
      decide (K.busy 0 = some (.realloc 196640 ⟨10, 2⟩ 30, some ⟨196640, 10, 10, 2⟩)) &&
      decide (K.busy 1 = some (.dealloc 196652 ⟨4, 4⟩, some ⟨196652, 4, 4, 4⟩)) && decide (g.allocations = 2) &&
      decide (g.s.w.mem 196640 = .raw 7) && decide (0 ∈ g.s.readers) && decide (1 ∈ g.s.readers)) (by decide +kernel)
  simp only [Bool.and_eq_true, decide_eq_true_eq] at hf
  obtain ⟨⟨⟨⟨⟨⟨⟨⟨h1, h2⟩, h3⟩, h4⟩, h5⟩, h6⟩, h7⟩, h8⟩, h9⟩ := hf
  exact ⟨_, g, K, hr, h1, h2, h3, rfl, h4, h5, h6, h7, h8, h9⟩

/-- For `C49_threads_realloc`: the last step of that `realloc`, after thread 1's `dealloc` came to its end. -/
example : ∃ g0 g K, GSReach g0 g K ∧ K.busy 0 = some (.realloc 196640 ⟨10, 2⟩ 30, some ⟨196640, 10, 10, 2⟩) ∧ K.busy 1 = none ∧
    ∃ g', gsstep g (.go 0 fresh) = .ok (some (some (.ptr 196656), g')) ∧ g'.s.w.mem 196656 = .raw 7 := by
  obtain ⟨g, K, hr, hl, hf⟩ := of_gsdemoAt (sizes := [24, 5, 4096]) (debug := true) (as := gsdemoActs ++ ggoes 1 3 ++ ggoes 0 11)
    (a := .go 0 fresh)
    (f := fun g K x => decide (K.busy 0 = some (.realloc 196640 ⟨10, 2⟩ 30, some ⟨196640, 10, 10, 2⟩)) && decide (K.busy 1 = none) &&
      match x with
      | .ok (some (some r, g')) => decide (r = .ptr 196656) && decide (g'.s.w.mem 196656 = .raw 7)
      | _ => false) (by decide +kernel)
  simp only [Bool.and_eq_true, decide_eq_true_eq] at hf
  obtain ⟨⟨h1, h2⟩, h3⟩ := hf
  refine ⟨_, g, K, hr, h1, h2, ?_⟩
  split at h3
  · rename_i r g' hx
    simp only [Bool.and_eq_true, decide_eq_true_eq] at h3
    obtain ⟨rfl, h3⟩ := h3
    exact ⟨g', hx, h3⟩
  · cases h3

/-- For `C49_threads_no_fault`: a thread waits for the lock, which another has. -/
example : ∃ g0 g K, GSReach g0 g K ∧ K.blinkMode = true ∧ K.busy 1 = some (.alloc ⟨16, 16⟩, none) ∧
    gsstep g (.go 1 fresh) = .ok none ∧ g.s.writer = some 0 := by
  obtain ⟨g, K, hr, hl, hf⟩ := of_gsdemoAt (sizes := [24, 5, 4096]) (debug := true)
    (as := [.blinkMode, .call 0 (.alloc ⟨10, 2⟩), .call 1 (.alloc ⟨16, 16⟩)] ++ ggoes 0 3) (a := .go 1 fresh)
    (f := fun g K x => K.blinkMode && decide (K.busy 1 = some (.alloc ⟨16, 16⟩, none)) && decide (g.s.writer = some 0) && match x with
      | .ok none => true
      | _ => false) (by decide +kernel)
  simp only [Bool.and_eq_true, decide_eq_true_eq] at hf
  obtain ⟨⟨⟨h1, h2⟩, h3⟩, h4⟩ := hf
  refine ⟨_, g, K, hr, h1, h2, ?_, h3⟩
  split at h4
  · assumption
  · cases h4

/-- For `C49_threads_alloc`: zeros at the end of `alloc_zeroed`. -/
example : ∃ g0 g K, GSReach g0 g K ∧ K.blinkMode = true ∧ K.busy 1 = some (.allocZeroed ⟨4, 4⟩, none) ∧ K.blink.length = 1 ∧
    ∃ g', gsstep g (.go 1 fresh) = .ok (some (some (.ptr 196652), g')) := by
  obtain ⟨g, K, hr, hl, hf⟩ := of_gsdemoAt (sizes := [24, 5, 4096]) (debug := true)
    (as := gsdemoActs.take 23) (a := .go 1 fresh)
    (f := fun g K x => K.blinkMode && decide (K.busy 1 = some (.allocZeroed ⟨4, 4⟩, none)) && decide (K.blink.length = 1) && match x with
      | .ok (some (some r, _)) => decide (r = .ptr 196652)
      | _ => false) (by decide +kernel)
  simp only [Bool.and_eq_true, decide_eq_true_eq] at hf
  obtain ⟨⟨⟨h1, h2⟩, h3⟩, h4⟩ := hf
  refine ⟨_, g, K, hr, h1, h2, h3, ?_⟩
  split at h4
  · rename_i r g' hx
    obtain rfl := of_decide_eq_true h4
    exact ⟨g', hx⟩
  · cases h4

/-- For C50 and C51: with nobody inside, a debug build panics if a block of blink mode is outstanding; a release build switches back
with such blocks in two chunks, and with direct blocks. -/
example : (∃ g0 g K, GSReach g0 g K ∧ g0.s.w.debug = true ∧ K.blink.length = 1 ∧ (∀ t, K.busy t = none) ∧
      gsstep g .directMode = .ok (some (some .panicked, g))) ∧
    ∃ g0 g K, GSReach g0 g K ∧ 2 ≤ (openBlocks g.s.w.log).length ∧ 2 ≤ K.direct.length ∧ 2 ≤ K.blink.length ∧ (∀ t, K.busy t = none) ∧
      ∃ g', gsstep g .directMode = .ok (some (some .unit, g')) := by
  constructor
  · obtain ⟨g, K, hr, hl, hf⟩ := of_gsdemoAt (sizes := [24, 5, 4096]) (debug := true) (as := gsdemoActs ++ ggoes 1 3 ++ ggoes 0 12)
      (a := .directMode) (f := fun _ K _ => decide (K.blink.length = 1)) (by decide +kernel)
    have hf := of_decide_eq_true hf
    have hq : ∀ t, K.busy t = none := by cases hl; assumption
    refine ⟨_, g, K, hr, rfl, hf, hq, ?_⟩
    rcases C50_threads_panics_iff hr hq (.inr rfl) with h | h
    · exact h.1
    · exact absurd ⟨rfl, by rintro he; rw [he] at hf; simp at hf⟩ h.2
  · obtain ⟨g, K, hr, hl, hf⟩ := of_gsdemoAt (sizes := [24, 5, 4096, 60000]) (debug := false)
      (as := gsdemoActs ++ ggoes 1 3 ++ ggoes 0 12 ++ [.call 1 (.alloc ⟨5000, 8⟩)] ++ ggoes 1 8) (a := .directMode)
      (f := fun g K x => decide (2 ≤ (openBlocks g.s.w.log).length) && decide (2 ≤ K.direct.length) && decide (2 ≤ K.blink.length) &&
        match x with
        | .ok (some (some .unit, _)) => true
        | _ => false) (by decide +kernel)
    have hq : ∀ t, K.busy t = none := by cases hl; assumption
    simp only [Bool.and_eq_true, decide_eq_true_eq] at hf
    refine ⟨_, g, K, hr, hf.1.1.1, hf.1.1.2, hf.1.2, hq, ?_⟩
    have h2 := hf.2
    split at h2
    · rename_i g' hx; exact ⟨g', hx⟩
    · cases h2

end Blink
