import Verif.Proofs.Contract
import Verif.Props.Local
import Verif.Props.ProxyRefine
import Verif.Props.Sync
/-
  C84: the allocators of this crate do what the documentation of `Allocator` says, and the thread-safe one as if calls of different
  threads happened one after the other.
-/
namespace Blink

/-! ### What the documentation implies -/

/-- Whatever an allocator does that keeps to the documentation: no two blocks in use overlap. -/
theorem AbsStep.apart {σ σ' op r} (h : AbsStep σ op r σ') (hp : σ.owned.Pairwise Owned.Apart) : σ'.owned.Pairwise Owned.Apart := by
  have cons : ∀ {M : List Owned} {l sl}, M.Pairwise Owned.Apart → FreshFor M l sl → (Owned.of sl l :: M).Pairwise Owned.Apart :=
    fun hM hf => List.pairwise_cons.mpr ⟨fun b hb x hx => hf.apart b hb x ⟨hx.2, hx.1⟩, hM⟩
  cases h with
  | allocate hf => exact cons hp hf
  | allocateZeroed hf => exact cons hp hf
  | resize _ _ hf => exact cons (hp.sublist List.erase_sublist) hf
  | growZeroed _ _ hf => exact cons (hp.sublist List.erase_sublist) hf
  | refused => exact hp
  | deallocate => exact hp.sublist List.erase_sublist
  | reset => exact .nil
  | resetFinal => exact .nil
  | write => exact hp

/-- The same for threads whose calls happen at one moment. -/
theorem LinRun.apart {σ0 tr σ T} (h : LinRun σ0 tr σ T) (hp : σ0.owned.Pairwise Owned.Apart) : σ.owned.Pairwise Owned.Apart := by
  induction h with
  | nil => exact hp
  | acts _ _ hs ih => exact hs.apart ih
  | write _ hs ih => exact hs.apart ih
  | reset _ _ _ hs ih => exact hs.apart ih
  | call _ _ ih => exact ih
  | inside _ ih => exact ih
  | ret _ _ ih => exact ih

/-! ### `BlinkAlloc` -/

/-- One call of a `BlinkAlloc`. -/
theorem C84_step {s0 s s' : St} {L L' : List Owned} (h : Reach s0 s L) {op : Op} (hl : Legal L op) {r : Resp}
    (hs : step s op = .ok (r, s')) (ha : After L op r L') : AbsStep ⟨L, s.w.mem⟩ op r ⟨L', s'.w.mem⟩ := by
  have h' : Reach s0 s' L' := by
    obtain ⟨h0, tr, hr⟩ := h
    exact ⟨h0, _, hr.snoc hl hs ha⟩
  have fresh : ∀ {sl : Slice} {l : Layout} {M : List Owned}, L' = Owned.of sl l :: M → FreshFor M l sl := by
    intro sl l M e
    subst e
    obtain ⟨h1, h2, h3, B, _, hB, h4, h5⟩ := C02_layout_and_memory h' (b := Owned.of sl l) List.mem_cons_self
    obtain ⟨cs, hi⟩ := h'.inv
    have := (hi.arena.held.rng B hB).2
    have := hi.arena.held.top
    refine ⟨h3, h1, h2, by simp only [Owned.of] at h5; omega, fun b hb x hx => ?_⟩
    exact (List.pairwise_cons.mp (C01_no_overlap h')).1 b hb x ⟨hx.2, hx.1⟩
  have same : (op ≠ .reset ∧ op ≠ .resetFinal ∧ ∀ x v, op ≠ .write x v) → SameOn L s.w.mem s'.w.mem :=
    fun hop b hb x hx => C05_never_writes_owned h hl hs hop hb hx
  have part : ∀ {b : Owned}, SameOn L s.w.mem s'.w.mem → SameOn (L.erase b) s.w.mem s'.w.mem :=
    fun hk c hc => hk c (List.mem_of_mem_erase hc)
  cases ha with
  | allocOk => exact .allocate (fresh rfl) (same (by simp))
  | allocErr => exact .refused rfl (same (by simp))
  | zeroedOk =>
    cases hl with
    | allocateZeroed hv => exact .allocateZeroed (fresh rfl) (same (by simp)) (C17_zeroed h hv hs).2
  | zeroedErr => exact .refused rfl (same (by simp))
  | resizeOk hb hf =>
    exact .resize hb hf (fresh rfl) (part (same (by simp))) fun i hi => C04_resize_preserves h hl hs hi
  | resizeErr => exact .refused rfl (same (by simp))
  | growZeroedOk hb hf =>
    exact .growZeroed hb hf (fresh rfl) (part (same (by simp))) (fun i hi => (C04_grow_zeroed h hl hs).1 hi)
      (fun i h1 h2 => (C04_grow_zeroed h hl hs).2 h1 h2)
  | growZeroedErr => exact .refused rfl (same (by simp))
  | deallocate hb hf => exact .deallocate hb hf (part (same (by simp)))
  | reset => exact .reset
  | resetFinal => exact .resetFinal
  | @write x v =>
    cases hl with
    | write hb hx =>
      cases hs
      refine .write hb hx ?_ fun c hc y hy hne => ?_
      · exact setBytes_in (m := s.w.mem) (a := x) (n := 1) (f := fun _ => v) (i := 0) (by omega)
      · show setBytes s.w.mem x 1 (fun _ => v) y = s.w.mem y
        rw [setBytes_out (by omega)]

/-- C84: every history of a `BlinkAlloc` is one the documentation of `Allocator` allows. -/
theorem C84_local {s0 s : St} {tr} {L : List Owned} (h0 : Start s0) (h : Run s0 [] tr s L) :
    AbsRun ⟨[], s0.w.mem⟩ tr ⟨L, s.w.mem⟩ := by
  induction h with
  | nil => exact .nil
  | snoc h hl hs ha ih => exact ih.snoc (C84_step ⟨h0, _, h⟩ hl hs ha)

/-- The hypotheses of `C84_local` are met by a history with four live blocks, a move and a zeroed block. -/
example : ∃ s0 s tr L, Start s0 ∧ Run s0 [] tr s L ∧ L.length = 4 :=
  let ⟨s, h0, tr, h⟩ := demo_reach; ⟨_, s, tr, _, h0, h, rfl⟩

/-! ### Proxies -/

/-- C84: the calls of a proxy of a `SyncBlinkAlloc`, whatever other threads do at the shared allocator and at other proxies, are together
with some stores of their callers a history the documentation of `Allocator` allows. -/
theorem C84_proxy {p0 ps : PS} {K : PBook} {tr} (h0 : PStart p0) (h : PRun p0 PBook.empty tr ps K) (i : Nat) :
    ∃ m tr' σ, AbsRun ⟨[], m⟩ tr' σ ∧ callsIn tr' = callsOf i tr := by
  obtain ⟨s0, tr', s, L, hs0, _, hr, hc⟩ := C75_calls h0 h i
  exact ⟨_, tr', _, C84_local hs0 hr, hc⟩

/-- C84: and the callers of the proxy find in their blocks what that history put there. -/
theorem C84_proxy_state {p0 ps : PS} {K : PBook} {tr} (h0 : PStart p0) (h : PRun p0 PBook.empty tr ps K) {i : Nat} {p : Proxy}
    (hp : ps.px i = some p) (hw : (pview i tr).wait ≠ some .reset) :
    ∃ m tr' σ, AbsRun ⟨[], m⟩ tr' σ ∧ callsIn tr' = callsOf i tr ∧ σ.owned.Perm (K.blocks i) ∧ SameOn σ.owned ps.s.w.mem σ.mem := by
  obtain ⟨s0, hs0⟩ := C75_exists p.a.minChunk (Nat.le_trans h0.top (by decide)) (answersTo i p0 tr [])
  obtain ⟨tr', s, L, hr, hc, hS⟩ := C75_own h0 h hp hw hs0
  exact ⟨_, tr', _, C84_local hs0.start hr, hc, hS.blocks, hS.bytes⟩

/-- The hypotheses are met by a proxy with one block that was moved by a resize. -/
example : ∃ p0 ps K tr p, PStart p0 ∧ PRun p0 PBook.empty tr ps K ∧ ps.px 0 = some p ∧ (pview 0 tr).wait ≠ some .reset ∧
    callsOf 0 tr = [(.allocate ⟨100, 8⟩, .block ⟨65600, 100⟩), (.resize 65600 ⟨100, 8⟩ ⟨400, 8⟩, .block ⟨65984, 400⟩)] := by
  obtain ⟨p0, ps, K, tr, h0, hr, rfl, hf⟩ := rdemo_own (acts := rdemo) (f := fun tr ps _ => (ps.px 0).isSome &&
    decide ((pview 0 tr).wait = none) &&
    decide (callsOf 0 tr = [(.allocate ⟨100, 8⟩, .block ⟨65600, 100⟩), (.resize 65600 ⟨100, 8⟩ ⟨400, 8⟩, .block ⟨65984, 400⟩)]))
    (by decide +kernel)
  simp only [Bool.and_eq_true, decide_eq_true_eq] at hf
  obtain ⟨⟨h1, h2⟩, h3⟩ := hf
  obtain ⟨p, hp⟩ := Option.isSome_iff_exists.mp h1
  exact ⟨_, ps, K, tr, p, h0, hr, hp, by rw [h2]; simp, h3⟩

/-! ### `SyncBlinkAlloc` -/

/-- C84: a `SyncBlinkAlloc` is linearizable. Every history of threads is one of an allocator whose calls happen at a single moment
between call and return, each as the documentation of `Allocator` allows. The blocks in the hands of the threads are in use there, with
the same contents; when no thread is inside a call, they are all that is in use. -/
theorem C84_linearizable {s0 s : SS} {K : Book} {tr} (h0 : SStart s0) (h : SRun s0 Book.empty tr s K) :
    ∃ σ T, LinRun ⟨[], s0.w.mem⟩ tr σ T ∧ (∀ t, T t = .idle ↔ K.busy t = none) ∧
      (∀ b ∈ K.owned, b ∈ σ.owned) ∧ SameOn σ.owned s.w.mem σ.mem ∧ ((∀ t, K.busy t = none) → σ.owned.Perm K.owned) := by
  obtain ⟨σ, T, hr, hs⟩ := h.abs h0
  refine ⟨σ, T, hr, fun t => ?_, fun b hb => ?_, fun b hb x hx => (hs.mem b hb x hx).symm, fun hq => ?_⟩
  · rw [hs.thr t]
    cases hb : K.busy t with
    | none => simp [Pc.abs]
    | some cb => cases s.pcs t <;> simp [Pc.abs]
  · obtain ⟨ts, _, _, hL⟩ := hs.own
    exact hL.mem_iff.mpr (List.mem_append_left _ hb)
  · obtain ⟨ts, _, _, hL⟩ := hs.own
    have : (ts.flatMap fun t => (s.pcs t).pend (K.busy t)) = [] := by
      apply List.flatMap_eq_nil_iff.mpr
      intro t _
      rw [hq t]
      cases s.pcs t <;> rfl
    rw [this, List.append_nil] at hL
    exact hL

/-- The hypotheses are met by a history in which a thread is in the middle of moving a block while another allocates. -/
example : ∃ s0 s K tr, SStart s0 ∧ SRun s0 Book.empty tr s K ∧ K.owned.length = 3 ∧ K.busy 1 ≠ none ∧ K.busy 3 ≠ none := by
  obtain ⟨s, K, ⟨h0, tr, h⟩, hf⟩ := of_sdemoAt (sizes := [512, 1024, 2048]) (m := 256) (as := sdemoActs)
    (f := fun _ K => decide (K.owned.length = 3) && decide (K.busy 1 ≠ none) && decide (K.busy 3 ≠ none)) (by decide) (by decide +kernel)
  simp only [Bool.and_eq_true, decide_eq_true_eq] at hf
  exact ⟨_, s, K, tr, h0, h, hf.1.1, hf.1.2, hf.2⟩

end Blink
