import Verif.Proofs.Shared
import Verif.Props.AnyContract
/-
  C89: whoever shares an allocator of this crate with others sees an allocator of their own, as documented.
-/
namespace Blink

/-! ### `BlinkAlloc` -/

theorem LShared.inv {s0 tr s L R} (h : LShared s0 tr s L R) : ∃ tr' W Z, Run s0 [] tr' s W ∧ W.Perm (L ++ (R ++ Z)) := by
  induction h with
  | nil => exact ⟨_, [], [], .nil, .refl _⟩
  | mine h hl hq hs ha ih =>
    obtain ⟨_, W, Z, hr, hp⟩ := ih
    obtain ⟨W', Z', ha', hp', _⟩ := ha.widen hp hq
    exact ⟨_, W', Z', hr.snoc (hl.mono fun b hb => hp.mem_iff.mpr (List.mem_append_left _ hb)) hs ha', hp'⟩
  | others h hl hq hs ha ih =>
    obtain ⟨_, W, Z, hr, hp⟩ := ih
    have hp := hp.trans (perm_swap _ _ _)
    obtain ⟨W', Z', ha', hp', _⟩ := ha.widen hp hq
    exact ⟨_, W', Z', hr.snoc (hl.mono fun b hb => hp.mem_iff.mpr (List.mem_append_left _ hb)) hs ha', hp'.trans (perm_swap _ _ _)⟩
  | @forget _ _ L R h ih =>
    obtain ⟨_, W, Z, hr, hp⟩ := ih
    exact ⟨_, W, L ++ Z, hr, hp.trans (perm_swap _ _ _)⟩
  | @othersForget _ _ L R h ih =>
    obtain ⟨_, W, Z, hr, hp⟩ := ih
    exact ⟨_, W, R ++ Z, hr, hp⟩

/-- C89: the calls of one user of a shared `BlinkAlloc`, alone, are a history the documentation of `Allocator` allows, whatever others do with blocks of
theirs in between. In the end that user has the same blocks there, with the same contents. -/
theorem C89_local {s0 s : St} {tr} {L R : List Owned} (h0 : Start s0) (ht : s0.w.top ≤ ISIZE) (h : LShared s0 tr s L R)
    (hz : ∀ e ∈ mineOf tr, e.1.WithBytes) :
    ∃ m, AbsWithin s0.w.top s0.w.held ⟨[], s0.w.mem⟩ (mineOf tr) ⟨L, m⟩ ∧ SameOn L s.w.mem m := by
  induction h with
  | nil => exact ⟨_, .nil, fun b hb => nomatch hb⟩
  | @mine tr s L R op r s' L' h hl hq hs ha ih =>
    rw [mineOf_true] at hz ⊢
    obtain ⟨m, hw, hm⟩ := ih fun e he => hz e (List.mem_append_left _ he)
    obtain ⟨_, W, Z, hr, hp⟩ := h.inv
    obtain ⟨W', Z', ha', hp', hZ⟩ := ha.widen hp hq
    have hlW := hl.mono fun b hb => hp.mem_iff.mpr (List.mem_append_left _ hb)
    have hstep := C84_step ⟨h0, _, hr⟩ hlW hs ha'
    refine ⟨s'.w.mem, hw.snoc hl (hz (op, r) (List.mem_append_right _ List.mem_cons_self))
      (hstep.proj hp ha (fun hn => hZ hn ▸ hp') hl hm) fun sl hsl => ?_, fun _ _ _ _ => rfl⟩
    have hmem : ∃ l, Owned.of sl l ∈ L' := by
      subst hsl
      cases ha <;> exact ⟨_, List.mem_cons_self⟩
    obtain ⟨l, hmem⟩ := hmem
    exact Reach.range ⟨h0, _, hr.snoc hlW hs ha'⟩ ht (hp'.mem_iff.mpr (List.mem_append_left _ hmem))
  | @others tr s L R op r s' R' h hl hq hs ha ih =>
    rw [mineOf_false] at hz ⊢
    obtain ⟨m, hw, hm⟩ := ih hz
    obtain ⟨_, W, Z, hr, hp⟩ := h.inv
    have hp := hp.trans (perm_swap _ _ _)
    obtain ⟨W', Z', ha', hp', hZ⟩ := ha.widen hp hq
    have hlW := hl.mono fun b hb => hp.mem_iff.mpr (List.mem_append_left _ hb)
    have hstep := C84_step ⟨h0, _, hr⟩ hlW hs ha'
    cases hn : op.resets with
    | true => rw [hq hn] at hw hm ⊢; exact ⟨m, hw, fun b hb => nomatch hb⟩
    | false =>
      have hfr := hstep.frame hp ha (fun hn => hZ hn ▸ hp') hl hn (C01_no_overlap ⟨h0, _, hr⟩)
      exact ⟨m, hw, fun b hb x hx => (hm b hb x hx).trans (hfr b (List.mem_append_left _ hb) x hx).symm⟩
  | forget h ih =>
    rw [mineOf_true] at hz ⊢
    obtain ⟨m, hw, hm⟩ := ih fun e he => hz e (List.mem_append_left _ he)
    exact ⟨m, hw.snoc .reset trivial .reset (fun sl hsl => nomatch hsl), fun b hb => nomatch hb⟩
  | othersForget h ih =>
    rw [mineOf_false] at hz ⊢
    exact ih hz

/-- C89: so it is a history of the allocator assumed in C82. -/
theorem C89_local_any {s0 s : St} {tr} {L R : List Owned} (h0 : Start s0) (ht : s0.w.top ≤ ISIZE) (h : LShared s0 tr s L R)
    (hz : ∀ e ∈ mineOf tr, e.1.WithBytes) :
    ∃ o s', AnyRun (.any false false s0.w.held) ⟨{ s0.w with oracle := o }, s0.a⟩ (mineOf tr) s' L ∧
      ∀ b ∈ L, ∀ x, b.Has x → s'.w.mem x = .uninit ∨ s'.w.mem x = s.w.mem x := by
  obtain ⟨m, hw, hm⟩ := C89_local h0 ht h hz
  obtain ⟨o, s', g1, g2, _⟩ := C88_every (a := s0.a) h0.world hw
  exact ⟨o, s', g1, fun b hb x hx => (g2 b hb x hx).imp_right fun e => e.trans (hm b hb x hx)⟩

/-- Run calls of a user (`true`) and of others (`false`). -/
def lshexec (s : St) (L R : List Owned) : List (Bool × Op) → Option (List Resp × St × List Owned × List Owned)
  | [] => some ([], s, L, R)
  | (b, op) :: ops =>
    if op.resets then none else
    match exec1 s (if b then L else R) op with
    | none => none
    | some (r, s', X) =>
      match lshexec s' (if b then X else L) (if b then R else X) ops with
      | none => none
      | some (rs, s'', L', R') => some (r :: rs, s'', L', R')

theorem lshexec_sound {s0 tr s L R} (h : LShared s0 tr s L R) {ops rs s' L' R'} (he : lshexec s L R ops = some (rs, s', L', R')) :
    LShared s0 (tr ++ (ops.zip rs).map fun x => (x.1.1, x.1.2, x.2)) s' L' R' := by
  induction ops generalizing tr s L R rs with
  | nil => cases he; simpa using h
  | cons o ops ih =>
    obtain ⟨b, op⟩ := o
    simp only [lshexec] at he
    split at he
    · cases he
    next hq =>
    split at he
    · cases he
    next r s1 X hx =>
    split at he
    · cases he
    next rs1 s2 L2 R2 hr =>
    cases he
    obtain ⟨h1, h2, h3⟩ := exec1_sound hx
    cases b with
    | true =>
      have := ih (h.mine h1 (fun hc => absurd hc hq) h2 h3) hr
      simpa using this
    | false =>
      have := ih (h.others h1 (fun hc => absurd hc hq) h2 h3) hr
      simpa using this

/-- The hypotheses are met: a user's block is moved because others allocated behind it. -/
def lshOps : List (Bool × Op) :=
  [(true, .allocate ⟨100, 8⟩), (false, .allocate ⟨40, 16⟩), (true, .write 65570 (.raw 7)), (false, .write 65680 (.raw 8)),
   (true, .resize 65568 ⟨100, 8⟩ ⟨150, 8⟩), (false, .allocateZeroed ⟨600, 4⟩), (false, .deallocate 65680 40), (true, .allocate ⟨5, 1⟩)]

example : ∃ s0 s tr L R, Start s0 ∧ s0.w.top ≤ ISIZE ∧ LShared s0 tr s L R ∧ (∀ e ∈ mineOf tr, e.1.WithBytes) ∧ L.length = 2 ∧ R.length = 1 ∧
    (mineOf tr).length = 4 := by
  have h : (match lshexec (demoStart [512, 2048]) [] [] lshOps with
    | none => false
    | some (rs, _, L, R) => decide (L.length = 2 ∧ R.length = 1) &&
        decide ((mineOf ((lshOps.zip rs).map fun x => (x.1.1, x.1.2, x.2))).length = 4) &&
        (mineOf ((lshOps.zip rs).map fun x => (x.1.1, x.1.2, x.2))).all fun e => decide e.1.WithBytes) = true := by decide +kernel
  split at h
  · cases h
  next rs s L R he =>
  simp only [Bool.and_eq_true, decide_eq_true_eq, List.all_eq_true] at h
  exact ⟨_, s, _, L, R, demoStart_start _ _ (by decide), by decide, lshexec_sound .nil he, by simpa using h.2, h.1.1.1, h.1.1.2, by simpa using h.1.2⟩

/-- C89: no call of either side reaches undefined behaviour or fails an assertion, though neither knows the other's blocks. -/
theorem C89_local_no_ub {s0 s : St} {tr} {L R : List Owned} (h0 : Start s0) (h : LShared s0 tr s L R) {op : Op} (hl : Legal L op ∨ Legal R op) {e : Fault}
    (he : step s op = .error e) : BadAnswer s.w e := by
  obtain ⟨tr', W, Z, hr, hp⟩ := h.inv
  refine C03_no_ub (s0 := s0) (L := W) ⟨h0, tr', hr⟩ ?_ he
  rcases hl with hl | hl
  · exact hl.mono fun b hb => hp.mem_iff.mpr (List.mem_append_left _ hb)
  · exact hl.mono fun b hb => hp.mem_iff.mpr (List.mem_append_right _ (List.mem_append_left _ hb))

/-! ### `SyncBlinkAlloc` -/

/-- C89: the threads of one user of a shared `SyncBlinkAlloc` see an allocator whose calls happen at a single moment, as the documentation of `Allocator`
allows, while threads of others do the same with blocks of theirs. -/
theorem C89_sync {s0 s : SS} {tr} {M O : Book} (h0 : SStart s0) (h : SShared s0 tr s M O) :
    ∃ σ T, LinRun ⟨[], s0.w.mem⟩ (mineOf tr) σ T ∧ (∀ t, T t = .idle ↔ M.busy t = none) ∧
      (∀ b ∈ M.owned, b ∈ σ.owned) ∧ SameOn σ.owned s.w.mem σ.mem ∧ ((∀ t, M.busy t = none) → σ.owned.Perm M.owned) := by
  obtain ⟨K, σ, T, _, _, hr, hs⟩ := h.abs h0
  exact ⟨σ, T, hr, hs.idles, fun b hb => hs.has hb, fun b hb x hx => (hs.mem b hb x hx).symm, hs.quiet⟩

/-- Run actions of a user (`true`) and of others (`false`). -/
def sshexec (s : SS) (M O : Book) : List (Bool × Act) → Option (List (Bool × Act × Option Resp) × SS × Book × Book)
  | [] => some ([], s, M, O)
  | (b, a) :: as =>
    if a.resets then none else
    match sexec1 s (if b then M else O) a with
    | none => none
    | some (r, s', X) =>
      match sshexec s' (if b then X else M) (if b then O else X) as with
      | none => none
      | some (tr, s'', M', O') => some ((b, a, r) :: tr, s'', M', O')

theorem sshexec_sound {s0 tr s M O} (h : SShared s0 tr s M O) {as tr' s' M' O'} (he : sshexec s M O as = some (tr', s', M', O')) :
    SShared s0 (tr ++ tr') s' M' O' := by
  induction as generalizing tr s M O tr' with
  | nil => cases he; simpa using h
  | cons o as ih =>
    obtain ⟨b, a⟩ := o
    simp only [sshexec] at he
    split at he
    · cases he
    next hq =>
    split at he
    · cases he
    next r s1 X hx =>
    split at he
    · cases he
    next tr1 s2 M2 O2 hr =>
    cases he
    obtain ⟨h1, h2, h3⟩ := sexec1_sound hx
    cases b with
    | true =>
      have := ih (h.mine h1 (fun hc => absurd hc hq) h2 h3) hr
      simpa using this
    | false =>
      have := ih (h.others h1 (fun hc => absurd hc hq) h2 h3) hr
      simpa using this

/-- Threads 1 and 3 are the user's, thread 2 belongs to others. -/
def sshActs : List (Bool × Act) :=
  sdemoActs.map fun a => match a with
    | .call t c => (t != 2, .call t c)
    | .go t ch => (t != 2, .go t ch)
    | .write x v => (true, .write x v)
    | a => (true, a)

/-- The hypotheses of `C89_sync` are met by a history in which a thread of the user is moving a block while others have allocated in the same chunks. -/
example : ∃ s0 s tr M O, SStart s0 ∧ SShared s0 tr s M O ∧ M.owned.length = 1 ∧ M.busy 1 ≠ none ∧ M.busy 3 ≠ none ∧ O.owned.length = 2 := by
  have h : (match sshexec (sdemoStart [512, 1024, 2048]) Book.empty Book.empty sshActs with
    | none => false
    | some (_, _, M, O) => decide (M.owned.length = 1) && decide (M.busy 1 ≠ none) && decide (M.busy 3 ≠ none) && decide (O.owned.length = 2)) = true := by
    decide +kernel
  split at h
  · cases h
  next tr s M O he =>
  simp only [Bool.and_eq_true, decide_eq_true_eq] at h
  exact ⟨_, s, _, M, O, sdemoStart_start _ _ (by decide), sshexec_sound .nil he, h.1.1.1, h.1.1.2, h.1.2, h.2⟩

theorem SInv.range {s0 s cs K B} (hi : SInv s0 s cs K B) (ht : s0.w.top ≤ ISIZE) {sl : Slice} {l : Layout} (hmem : Owned.of sl l ∈ K.owned) :
    sl.len < ISIZE ∧ sl.addr + sl.len < s0.w.top ∧
      ∀ f ∈ s0.w.held, ∀ x, ¬ ((f.addr ≤ x ∧ x < f.addr + f.len) ∧ sl.addr ≤ x ∧ x < sl.addr + sl.len) := by
  obtain ⟨_, _, _, d, hd, h4, h5⟩ := hi.fam.owned.each _ hmem
  have hd' := hi.arena.ok d hd
  have := hd'.lo; have := hd'.hi; have := hd'.pos
  have hr := hi.arena.held.rng _ (hi.arena.mem_held hd)
  have htop := hi.top
  have hp := hi.arena.held.dis
  rw [hi.arena.perm.pairwise_iff (fun h => (BaseBlk.Disjoint.symm h))] at hp
  simp only [Owned.of, Chunk.blk] at h4 h5 hr
  refine ⟨by omega, by omega, fun f hf x hx => ?_⟩
  have := (List.pairwise_append.mp hp).2.2 _ (List.mem_map_of_mem hd) f hf
  simp only [BaseBlk.Disjoint, Chunk.blk] at this
  omega

/-- How far the call of the user's thread is. -/
def OneStage (s0 : SS) (t : Nat) (tr : List (Op × Resp)) (M : Book) (σ : AbsState) (T : Nat → AbsThr) : Prop :=
  match M.busy t with
  | none => AbsWithin s0.w.top s0.w.held ⟨[], s0.w.mem⟩ tr σ
  | some (c, _) => (T t = .called c ∧ AbsWithin s0.w.top s0.w.held ⟨[], s0.w.mem⟩ tr σ ∧ Legal σ.owned c.op) ∨
      ∃ r σp, T t = .done r ∧ AbsWithin s0.w.top s0.w.held ⟨[], s0.w.mem⟩ tr σp ∧ Legal σp.owned c.op ∧ AbsStep σp c.op r σ

theorem OneStage.acts {s0 t tr M σ T c r σ'} (h : OneStage s0 t tr M σ T) (hT : T t = .called c) (hi : ∀ t, T t = .idle ↔ M.busy t = none)
    (hs : AbsStep σ c.op r σ') : OneStage s0 t tr M σ' (put T t (.done r)) := by
  cases hb : M.busy t with
  | none => rw [(hi t).mpr hb] at hT; cases hT
  | some q =>
    obtain ⟨c', ob⟩ := q
    simp only [OneStage, hb] at h ⊢
    rcases h with ⟨h1, h2, h3⟩ | ⟨r', σp, h1, _⟩
    · rw [hT] at h1
      cases h1
      exact .inr ⟨r, σ, put_same _ _ _, h2, h3, hs⟩
    · rw [hT] at h1; cases h1

theorem SOne.abs {s0 t tr s M O} (h0 : SStart s0) (ht : s0.w.top ≤ ISIZE) (h : SOne s0 t tr s M O) (hz : ∀ e ∈ tr, e.1.WithBytes) :
    ∃ K σ T, (∃ tr', SRun s0 Book.empty tr' s K) ∧ Book.Union M O K ∧ AbsSim s M σ T ∧ (∀ u, u ≠ t → M.busy u = none) ∧ OneStage s0 t tr M σ T := by
  induction h with
  | nil => exact ⟨_, _, _, ⟨_, .nil⟩, ⟨⟨[], .refl _⟩, fun _ => rfl, fun _ => .inl rfl⟩, .start, fun _ _ => rfl, .nil⟩
  | @call tr s M O c s' M' h hl hs ha ih =>
    obtain ⟨K, σ, T, ⟨tr', hrun⟩, hU, hsim, hone, hst⟩ := ih hz
    obtain ⟨cs, B, hi⟩ := hrun.inv h0
    obtain ⟨hlK, K', haK, hU'⟩ := hU.step hi hl (fun h => nomatch h) hs ha
    have hb : M.busy t = none := by cases hl <;> assumption
    have hs' : s' = s.setPc t (.rd c) := by
      simp only [sstep] at hs
      split at hs
      · cases hs
        rfl
      · cases hs
    simp only [OneStage, hb] at hst
    have go : ∀ {ob L sn}, M' = { owned := L, busy := put M.busy t (some (c, ob)), snap := sn } → M.owned.Perm (ob.toList ++ L) → Legal σ.owned c.op →
        ∃ K σ T, (∃ tr', SRun s0 Book.empty tr' s' K) ∧ Book.Union M' O K ∧ AbsSim s' M' σ T ∧ (∀ u, u ≠ t → M'.busy u = none) ∧
          OneStage s0 t tr M' σ T := by
      rintro ob L sn rfl hL hleg
      obtain ⟨h1, h2⟩ := hsim.call (c := c) (sn := sn) hb hL
      rw [hs']
      refine ⟨K', σ, _, ⟨_, hs' ▸ hrun.snoc hlK hs haK⟩, hU', h2, fun u hu => ?_, ?_⟩
      · dsimp only; rw [put_ne _ _ hu]; exact hone u hu
      · simp only [OneStage, put_same]
        exact .inl ⟨trivial, hst, hleg⟩
    have has : ∀ {b}, b ∈ M.owned → b ∈ σ.owned := fun hb => hsim.has hb
    cases ha with
    | allocate =>
      cases hl with
      | allocate _ hv => exact go rfl (List.Perm.refl _) (.allocate hv)
    | resize ho hf =>
      cases hl with
      | resize _ ho' hf' hv => exact go rfl (List.perm_cons_erase ho) (.resize (has ho') hf' hv)
    | deallocate ho hf =>
      cases hl with
      | deallocate _ ho' hf' => exact go rfl (List.perm_cons_erase ho) (.deallocate (has ho') hf')
  | @inside tr s M O ch s' h hs ih =>
    obtain ⟨K, σ, T, ⟨tr', hrun⟩, hU, hsim, hone, hst⟩ := ih hz
    obtain ⟨cs, B, hi⟩ := hrun.inv h0
    have hrun' := hrun.snoc .go hs .inside
    obtain ⟨cs', B', hi'⟩ := hrun'.inv h0
    rcases hsim.inside hi hU.part hs hi' with h1 | ⟨c, r, σ', h1, h2, h3⟩
    · exact ⟨K, σ, T, ⟨_, hrun'⟩, hU, h1, hone, hst⟩
    · exact ⟨K, σ', _, ⟨_, hrun'⟩, hU, h3, hone, hst.acts h1 hsim.idles h2⟩
  | @ret tr s M O ch c ob r s' h hb hs ih =>
    obtain ⟨K, σ, T, ⟨tr', hrun⟩, hU, hsim, hone, hst⟩ := ih fun e he => hz e (List.mem_append_left _ he)
    obtain ⟨cs, B, hi⟩ := hrun.inv h0
    obtain ⟨hlK, K', haK, hU'⟩ := hU.step hi (.go) (fun h => nomatch h) hs (.ret hb)
    have hrun' := hrun.snoc hlK hs haK
    obtain ⟨cs', B', hi'⟩ := hrun'.inv h0
    obtain ⟨h1, h2⟩ := hsim.ret hi hs hb
    refine ⟨K', σ, _, ⟨_, hrun'⟩, hU', h2, fun u hu => ?_, ?_⟩
    · dsimp only; rw [put_ne _ _ hu]; exact hone u hu
    · simp only [OneStage, hb] at hst
      simp only [OneStage, put_same]
      rcases hst with ⟨h3, _⟩ | ⟨r', σp, h3, h4, h5, h6⟩
      · rw [h1] at h3; cases h3
      rw [h1] at h3
      cases h3
      refine h4.snoc h5 (hz _ (List.mem_append_right _ List.mem_cons_self)) h6 fun sl hsl => ?_
      subst hsl
      have hmem : ∃ l, Owned.of sl l ∈ K'.owned := by
        have sub : ∀ b ∈ gets c ob (.block sl), b ∈ K'.owned := fun b hb' => hU'.part.owned b (List.mem_append_left _ hb')
        cases c with
        | allocate l => exact ⟨l, sub _ List.mem_cons_self⟩
        | resize p old new => exact ⟨new, sub _ List.mem_cons_self⟩
        | deallocate p n => cases h6
      obtain ⟨l, hmem⟩ := hmem
      exact hi'.range ht hmem
  | @write tr s M O x v s' h hb hl hs ih =>
    obtain ⟨K, σ, T, ⟨tr', hrun⟩, hU, hsim, hone, hst⟩ := ih fun e he => hz e (List.mem_append_left _ he)
    obtain ⟨cs, B, hi⟩ := hrun.inv h0
    obtain ⟨hlK, K', haK, hU'⟩ := hU.step hi hl (fun h => nomatch h) hs .write
    have hrun' := hrun.snoc hlK hs haK
    simp only [OneStage, hb] at hst
    cases hs
    cases hl with
    | @write b _ _ ho hx =>
      have hm : b ∈ σ.owned := hsim.has ho
      refine ⟨K', ⟨σ.owned, setBytes s.w.mem x 1 fun _ => v⟩, T, ⟨_, hrun'⟩, hU', ⟨hsim.thr, hsim.own, fun _ _ _ _ => rfl⟩, hone, ?_⟩
      simp only [OneStage, hb]
      refine hst.snoc (.write hm hx) (hz _ (List.mem_append_right _ List.mem_cons_self)) (.write hm hx ?_ fun c hc y hy hne => ?_)
        (fun sl hsl => nomatch hsl)
      · exact setBytes_in (m := s.w.mem) (a := x) (n := 1) (f := fun _ => v) (i := 0) (by omega)
      · rw [setBytes_out (by omega)]
        exact hsim.mem c hc y hy
  | @reset tr s M O a s' h har hl hq hs ih =>
    obtain ⟨K, σ, T, ⟨tr', hrun⟩, hU, hsim, hone, hst⟩ := ih fun e he => hz e (List.mem_append_left _ he)
    obtain ⟨cs, B, hi⟩ := hrun.inv h0
    have ha : SAfter s.w.mem M a none { M with owned := [] } := by
      cases a <;> first | (cases har; done) | skip
      · exact .reset
      · exact .resetUnchecked
      · exact .resetFinal
    have hqM : ∀ t, M.busy t = none := by
      cases a <;> first | (cases har; done) | skip
      all_goals (cases hl; assumption)
    obtain ⟨hlK, K', haK, hU'⟩ := hU.step hi hl (fun _ => hq) hs ha
    have hrun' := hrun.snoc hlK hs haK
    refine ⟨K', ⟨[], s'.w.mem⟩, T, ⟨_, hrun'⟩, hU', ⟨fun u => ?_, ⟨[], .nil, fun u _ => ?_, .refl _⟩, fun b hb => by cases hb⟩, hone, ?_⟩
    · rw [(hsim.idles u).mpr (hqM u)]
      dsimp only
      rw [hqM u]
      cases s'.pcs u <;> rfl
    · dsimp only
      rw [hqM u]
      cases s'.pcs u <;> rfl
    · simp only [OneStage, hqM t] at hst ⊢
      exact hst.snoc .reset trivial .reset (fun sl hsl => nomatch hsl)
  | @others tr s M O a r s' O' h hl hq hs ha ih =>
    obtain ⟨K, σ, T, ⟨tr', hrun⟩, hU, hsim, hone, hst⟩ := ih hz
    obtain ⟨cs, B, hi⟩ := hrun.inv h0
    obtain ⟨hlK, K', haK, hU'⟩ := hU.symm.step hi hl hq hs ha
    have hrun' := hrun.snoc hlK hs haK
    obtain ⟨cs', B', hi'⟩ := hrun'.inv h0
    rcases hsim.other hU hi hl hq hs ha haK hi' with h1 | ⟨u, c, r, σ', h1, h2, h3⟩
    · exact ⟨K', σ, T, ⟨_, hrun'⟩, hU'.symm, h1, hone, hst⟩
    · have hu : u = t := by
        by_cases hu : u = t
        · exact hu
        · rw [(hsim.idles u).mpr (hone u hu)] at h1; cases h1
      subst hu
      exact ⟨K', σ', _, ⟨_, hrun'⟩, hU'.symm, h3, hone, hst.acts h1 hsim.idles h2⟩
  | @forget tr s M O h hb ih =>
    obtain ⟨K, σ, T, hrun, hU, hsim, hone, hst⟩ := ih fun e he => hz e (List.mem_append_left _ he)
    have hqM : ∀ u, M.busy u = none := fun u => by
      by_cases hu : u = t
      · rw [hu]; exact hb
      · exact hone u hu
    refine ⟨K, ⟨[], s.w.mem⟩, T, hrun, hU.forget, ⟨hsim.thr, ⟨[], .nil, fun u _ => ?_, .refl _⟩, fun b hb => by cases hb⟩, hone, ?_⟩
    · dsimp only
      rw [hqM u]
      cases s.pcs u <;> rfl
    · simp only [OneStage, hb] at hst ⊢
      exact hst.snoc .reset trivial .reset (fun sl hsl => nomatch hsl)
  | othersForget h hb ih =>
    obtain ⟨K, σ, T, hrun, hU, hsim, hone, hst⟩ := ih hz
    exact ⟨K, σ, T, hrun, hU.symm.forget.symm, hsim, hone, hst⟩

/-- C89: the calls of one thread that uses a `SyncBlinkAlloc` by itself, alone, are a history the documentation of `Allocator` allows, whatever other threads
do with blocks of theirs at the same time. Between calls that thread has the same blocks there, with the same contents. -/
theorem C89_thread {s0 s : SS} {t : Nat} {tr} {M O : Book} (h0 : SStart s0) (ht : s0.w.top ≤ ISIZE) (h : SOne s0 t tr s M O)
    (hz : ∀ e ∈ tr, e.1.WithBytes) (hb : M.busy t = none) :
    ∃ σ, AbsWithin s0.w.top s0.w.held ⟨[], s0.w.mem⟩ tr σ ∧ σ.owned.Perm M.owned ∧ SameOn M.owned s.w.mem σ.mem := by
  obtain ⟨K, σ, T, _, _, hsim, hone, hst⟩ := h.abs h0 ht hz
  simp only [OneStage, hb] at hst
  have hp := hsim.quiet fun u => by
    by_cases hu : u = t
    · rw [hu]; exact hb
    · exact hone u hu
  exact ⟨σ, hst, hp, fun b hm x hx => (hsim.mem b (hp.mem_iff.mpr hm) x hx).symm⟩

/-- C89: so it is a history of the allocator assumed in C82. -/
theorem C89_thread_any {s0 s : SS} {t : Nat} {tr} {M O : Book} (h0 : SStart s0) (ht : s0.w.top ≤ ISIZE) (h : SOne s0 t tr s M O)
    (hz : ∀ e ∈ tr, e.1.WithBytes) (hb : M.busy t = none) (a : BA) :
    ∃ o s' L, AnyRun (.any false false s0.w.held) ⟨{ s0.w with oracle := o }, a⟩ tr s' L ∧ L.Perm M.owned ∧
      ∀ b ∈ M.owned, ∀ x, b.Has x → s'.w.mem x = .uninit ∨ s'.w.mem x = s.w.mem x := by
  obtain ⟨σ, hw, hp, hm⟩ := C89_thread h0 ht h hz hb
  obtain ⟨o, s', g1, g2, _⟩ := C88_every (a := a) h0.world hw
  exact ⟨o, s', _, g1, hp, fun b hb x hx => (g2 b (hp.mem_iff.mpr hb) x hx).imp_right fun e => e.trans (hm b hb x hx)⟩

/-- Run actions of thread `t` (`true`) and of others (`false`). -/
def oneexec (t : Nat) (s : SS) (M O : Book) : List (Bool × Act) → Option (List (Op × Resp) × SS × Book × Book)
  | [] => some ([], s, M, O)
  | (true, .call u c) :: as =>
    if u = t then
      match sexec1 s M (.call t c) with
      | some (none, s', M') => oneexec t s' M' O as
      | _ => none
    else none
  | (true, .go u ch) :: as =>
    if u = t then
      match sstep s (.go t ch), M.busy t with
      | .ok (some (none, s')), _ => oneexec t s' M O as
      | .ok (some (some r, s')), some (c, ob) =>
        match oneexec t s' { M with owned := gets c ob r ++ M.owned, busy := put M.busy t none } O as with
        | none => none
        | some (tr, q) => some ((c.op, r) :: tr, q)
      | _, _ => none
    else none
  | (true, .write x v) :: as =>
    if M.busy t = none then
      match sexec1 s M (.write x v) with
      | some (none, s', _) =>
        match oneexec t s' M O as with
        | none => none
        | some (tr, q) => some ((.write x v, .unit) :: tr, q)
      | _ => none
    else none
  | (true, _) :: _ => none
  | (false, a) :: as =>
    if a.resets then none else
    match sexec1 s O a with
    | none => none
    | some (_, s', O') => oneexec t s' M O' as

theorem oneexec_sound {s0 t tr s M O} (h : SOne s0 t tr s M O) {as tr' s' M' O'} (he : oneexec t s M O as = some (tr', s', M', O')) :
    SOne s0 t (tr ++ tr') s' M' O' := by
  induction as generalizing tr s M O tr' with
  | nil => cases he; simpa using h
  | cons o as ih =>
    obtain ⟨b, a⟩ := o
    cases b with
    | false =>
      simp only [oneexec] at he
      split at he
      · cases he
      next hq =>
      split at he
      · cases he
      next r s1 X hx =>
      obtain ⟨h1, h2, h3⟩ := sexec1_sound hx
      exact ih (h.others h1 (fun hc => absurd hc hq) h2 h3) he
    | true =>
      cases a with
      | call u c =>
        simp only [oneexec] at he
        split at he
        · next hu =>
          split at he
          · next s1 M1 hx =>
            obtain ⟨h1, h2, h3⟩ := sexec1_sound hx
            exact ih (h.call h1 h2 h3) he
          · cases he
        · cases he
      | go u ch =>
        simp only [oneexec] at he
        split at he
        · next hu =>
          split at he
          · next hx => exact ih (h.inside hx) he
          · next r s1 c ob hx hb =>
            split at he
            · cases he
            next tr1 q hq =>
            cases he
            have := ih (h.ret hb hx) hq
            simpa using this
          · cases he
        · cases he
      | write x v =>
        simp only [oneexec] at he
        split at he
        · next hb =>
          split at he
          · next s1 M1 hx =>
            split at he
            · cases he
            next tr1 q hq =>
            cases he
            obtain ⟨h1, h2, h3⟩ := sexec1_sound hx
            have := ih (h.write hb h1 h2) hq
            simpa using this
          · cases he
        · cases he
      | _ => cases he

/-- Thread 1 allocates, stores and moves a block while thread 2, of others, takes space in the same chunk in the middle of its calls. -/
def oneActs : List (Bool × Act) :=
  let me := fun n => (goes 1 n).map (true, ·)
  let they := fun n => (goes 2 n).map (false, ·)
  [(true, .call 1 (.allocate ⟨100, 8⟩))] ++ me 5 ++ [(true, .write 65580 (.raw 7)), (false, .call 2 (.allocate ⟨10, 16⟩))] ++ they 1 ++
  [(true, .call 1 (.resize 65568 ⟨100, 8⟩ ⟨120, 8⟩))] ++ me 1 ++ they 3 ++ me 105

/-- The hypotheses of `C89_thread` are met. -/
example : ∃ s0 s tr M O, SStart s0 ∧ s0.w.top ≤ ISIZE ∧ SOne s0 1 tr s M O ∧ (∀ e ∈ tr, e.1.WithBytes) ∧ M.busy 1 = none ∧
    O.owned.length = 1 ∧ M.owned = [⟨65696, 120, 120, 8⟩] ∧ s.w.mem 65708 = .raw 7 := by
  have h : (match oneexec 1 (sdemoStart [512, 1024, 2048]) Book.empty Book.empty oneActs with
    | none => false
    | some (tr, s, M, O) => (tr.all fun e => decide e.1.WithBytes) && decide (M.busy 1 = none) && decide (O.owned.length = 1) &&
        decide (M.owned = [⟨65696, 120, 120, 8⟩]) && decide (s.w.mem 65708 = .raw 7)) = true := by
    decide +kernel
  split at h
  · cases h
  next tr s M O he =>
  simp only [Bool.and_eq_true, decide_eq_true_eq, List.all_eq_true] at h
  exact ⟨_, s, _, M, O, sdemoStart_start _ _ (by decide), by decide, oneexec_sound .nil he, by simpa using h.1.1.1.1, h.1.1.1.2, h.1.1.2, h.1.2, h.2⟩

/-! ### Proxies -/

/-- C89: no step of either side reaches undefined behaviour or fails an assertion, though neither knows the other's blocks and calls. -/
theorem C89_sync_no_ub {s0 s : SS} {tr} {M O : Book} (h0 : SStart s0) (h : SShared s0 tr s M O) {a : Act}
    (hl : SLegal M a ∧ (a.resets = true → O.Idle) ∨ SLegal O a ∧ (a.resets = true → M.Idle)) {e : Fault} (he : sstep s a = .error e) :
    BadAnswer s.w e := by
  obtain ⟨K, _, _, ⟨tr', hr⟩, hU, _⟩ := h.abs h0
  refine C22_no_ub (K := K) ⟨h0, tr', hr⟩ ?_ he
  rcases hl with ⟨hl, hq⟩ | ⟨hl, hq⟩
  · exact hU.legal hl hq he
  · exact hU.symm.legal hl hq he

/-- The same where one side is a single thread. -/
theorem C89_thread_no_ub {s0 s : SS} {t : Nat} {tr} {M O : Book} (h0 : SStart s0) (ht : s0.w.top ≤ ISIZE) (h : SOne s0 t tr s M O)
    (hz : ∀ e ∈ tr, e.1.WithBytes) {a : Act}
    (hl : SLegal M a ∧ (a.resets = true → O.Idle) ∨ SLegal O a ∧ (a.resets = true → M.Idle)) {e : Fault} (he : sstep s a = .error e) :
    BadAnswer s.w e := by
  obtain ⟨K, _, _, ⟨tr', hr⟩, hU, _⟩ := h.abs h0 ht hz
  refine C22_no_ub (K := K) ⟨h0, tr', hr⟩ ?_ he
  rcases hl with ⟨hl, hq⟩ | ⟨hl, hq⟩
  · exact hU.legal hl hq he
  · exact hU.symm.legal hl hq he

/-- C89: the calls of a proxy of a `SyncBlinkAlloc`, with stores of their callers, are a history of the allocator assumed in C82. -/
theorem C89_proxy {p0 ps : PS} {K : PBook} {tr} (h0 : PStart p0) (h : PRun p0 PBook.empty tr ps K) (i : Nat) (hz : ∀ e ∈ callsOf i tr, e.1.WithBytes) :
    ∃ s0 tr' s' L F, AnyRun (.any false false F) s0 tr' s' L ∧ callsIn tr' = callsOf i tr := by
  obtain ⟨s0, tr', s, L, hs0, htop, hr, hc⟩ := C75_calls h0 h i
  have hT : s0.w.top ≤ ISIZE := by rw [htop]; exact Nat.le_trans h0.top (by decide)
  obtain ⟨o, s', g, _⟩ := C88_blink_alloc hs0 hT hr fun e he => by
    by_cases hw : e ∈ callsIn tr'
    · exact hz e (hc ▸ hw)
    · obtain ⟨op, r⟩ := e
      cases op <;> first | trivial | exact absurd (List.mem_filter.mpr ⟨he, rfl⟩) hw
  exact ⟨_, tr', s', L, _, g, hc⟩

/-- The hypotheses are met by a proxy whose block was moved by a resize. -/
example : ∃ p0 ps K tr, PStart p0 ∧ PRun p0 PBook.empty tr ps K ∧ (∀ e ∈ callsOf 0 tr, e.1.WithBytes) ∧ (callsOf 0 tr).length = 2 := by
  obtain ⟨p0, ps, K, tr, h0, hr, rfl, hf⟩ := rdemo_own (acts := rdemo) (f := fun tr _ _ =>
    decide (callsOf 0 tr = [(.allocate ⟨100, 8⟩, .block ⟨65600, 100⟩), (.resize 65600 ⟨100, 8⟩ ⟨400, 8⟩, .block ⟨65984, 400⟩)]))
    (by decide +kernel)
  have hf := of_decide_eq_true hf
  exact ⟨_, ps, K, tr, h0, hr, by rw [hf]; decide, by rw [hf]; rfl⟩

end Blink
