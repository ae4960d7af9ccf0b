import Verif.Props.Blink
import Verif.Proofs.ProxyMax
/-
  Property theorems about the end of a `Blink` and of a call of `from_iter`: C57 (`SendBlink::new`), C67, C68.
-/
namespace Blink

/-! ### C57 -/

/-- C57: `SendBlink::new` resets an allocator that is owned or mutably borrowed, after all destructors returned; the destructors
only changed bytes of the values they ran on. -/
theorem C57_send_resets {b0 b b' : BState} {bk : BBook} (h : BReach b0 b bk) (hk : b0.kind = .owned ∨ b0.kind = .refMut)
    (hl : b0.legal bk .send)
    (hs : bstep b .send = .ok (.unit, b')) :
    ∃ m r, (∀ x, (∀ r ∈ bk.refs, r.drop = true → ¬ r.Has x) → m x = b.s.w.mem x) ∧
      step { b.s with w := { b.s.w with mem := m } } .reset = .ok (r, b'.s) := by
  obtain ⟨cs, items, hw⟩ := h.wk
  obtain ⟨out, evs, m, b1, e1, _, _, _, _, _, _, _, _, e4, _, e5⟩ := hw.drop hl trivial
  rw [e1] at hs
  injection hs with hs
  injection hs with f1 f2
  subst f2
  have hout : out = .fine := by cases out <;> first | rfl | cases f1
  subst hout
  obtain ⟨r, hr⟩ := e5 (by rcases hk with hk | hk <;> simp [renews, hk, AKind.keeps])
  rw [AKind.step_arena (by rcases hk with hk | hk <;> rw [hk] <;> rfl)] at hr
  exact ⟨m, r, e4, hr⟩

example : ∃ b0 b b' bk, BReach b0 b bk ∧ (b0.kind = .owned ∨ b0.kind = .refMut) ∧ b0.legal bk .send ∧ bstep b .send = .ok (.unit, b') ∧ bk.refs = bdemoRefs := by
  obtain ⟨b0, b, bk, r, b', bk', rfl, h1, h2, h3, h4, h5, h6⟩ := bdemo_at (kind := .refMut) (panics := []) (debug := true) (ops := bdemoOps)
    (op := .send) (f := fun _ bk r _ _ => decide (bk.refs = bdemoRefs ∧ r = .unit)) (by decide +kernel)
  rw [decide_eq_true_eq] at h6
  obtain ⟨g1, rfl⟩ := h6
  exact ⟨_, b, b', bk, h1, (by simp [bdemo]), h3, h4, g1⟩

/-! ### C67 -/

/-- C67: at every moment in the life of a `Blink`, the blocks of the underlying allocator in use are those obtained and not yet
given back, and the ones in use before; every block given back was held and is given back with a layout that fits it. -/
theorem C67_accounts {b0 b : BState} {bk : BBook} (h : BReach b0 b bk) (hk : b0.kind.isAny = false) :
    b.s.w.held.Perm (openBlocks b.s.w.log ++ b0.s.w.held) ∧ FreesOK b.s.w.log := by
  obtain ⟨cs, items, hw⟩ := h.wk
  have hi := hw.inv.toInv hk
  refine ⟨?_, hi.log.2⟩
  rw [hi.log.1]
  exact hi.arena.perm

theorem resetFinal_root {a a' : BA} {w w' : World} (h : a.resetFinal w = .ok (a', w')) : a'.root = 0 := by
  unfold BA.resetFinal at h
  obtain ⟨r, w1, h1, h2⟩ := mbind_inv h
  injection h2 with h2
  injection h2 with h2 _
  rw [← h2]
  unfold arenaReset at h1
  obtain ⟨n, w2, _, h4⟩ := mbind_inv h1
  obtain ⟨_, w3, _, h6⟩ := mbind_inv h4
  injection h6 with h6
  injection h6 with h6 _
  exact h6.symm

/-- C67: dropping a `Blink` that owns its allocator gives back every block, even if a destructor panics (unless the process
aborts because a second destructor panics). -/
theorem C67_drop_owned {b0 b b' : BState} {bk : BBook} {resp : BResp} (h : BReach b0 b bk) (hk : b0.kind = .owned)
    (hl : b0.legal bk .dropBlink) (hs : bstep b .dropBlink = .ok (resp, b')) (ha : resp ≠ .aborted) :
    b'.s.w.held.Perm b0.s.w.held ∧ openBlocks b'.s.w.log = [] ∧ FreesOK b'.s.w.log ∧ b'.s.a.root = 0 ∧ b'.over = true := by
  obtain ⟨cs, items, hw⟩ := h.wk
  have hl' : BLegal b0.types b0.s.w.held b0.s.w.debug bk .dropBlink := hl.1
  obtain ⟨out, evs, m, b1, cs', e1, _, _, e4, _, _, _, e8, e9⟩ := hw.dropStep (op := .dropBlink) rfl (hl'.drop_frames rfl) (by simp)
  rw [e1] at hs
  injection hs with hs
  injection hs with f1 f2
  subst f2
  have hr : renews b0.kind .dropBlink out = true := by
    rw [hk]
    cases out <;> first | rfl | exact absurd f1.symm ha
  obtain ⟨r, hr⟩ := e8 hr
  rw [if_pos rfl, AKind.step_arena (by rw [hk]; rfl)] at hr
  have hi := e9.inv.toInv (by rw [hk]; rfl)
  have hroot : b1.s.a.root = 0 := by
    obtain ⟨⟨a, w⟩, g1, g2⟩ := ebind_split hr
    injection g2 with g2
    injection g2 with _ g2
    rw [← g2]
    exact resetFinal_root g1
  have hcs : cs' = [] := by
    cases cs' with
    | nil => rfl
    | cons c cs' =>
      have h1 := hi.root
      have h2 := (hi.arena.ok c List.mem_cons_self)
      rw [hroot] at h1
      have h3 := h2.pos
      simp only [rootOf] at h1
      omega
  subst hcs
  refine ⟨?_, ?_, hi.log.2, hroot, ?_⟩
  · simpa using hi.arena.perm
  · rw [hi.log.1]; rfl
  · rw [e4]; simp

/-- C67: dropping a `Blink` over a borrowed allocator leaves the allocator as it is: only bytes of the dropped values can change. -/
theorem C67_drop_borrowed {b0 b b' : BState} {bk : BBook} {resp : BResp} (h : BReach b0 b bk)
    (hk : b0.kind = .refMut ∨ b0.kind = .shared ∨ ∃ exact others, b0.kind = .any exact true others)
    (hl : b0.legal bk .dropBlink) (hs : bstep b .dropBlink = .ok (resp, b')) :
    (∃ m, b'.s = { b.s with w := { b.s.w with mem := m } } ∧ ∀ x, (∀ r ∈ bk.refs, r.drop = true → ¬ r.Has x) → m x = b.s.w.mem x) ∧
    b'.over = true := by
  obtain ⟨cs, items, hw⟩ := h.wk
  obtain ⟨out, evs, m, b1, e1, _, _, _, _, _, _, _, e3, e4, e5, _⟩ := hw.drop hl trivial
  rw [e1] at hs
  injection hs with hs
  injection hs with f1 f2
  subst f2
  refine ⟨⟨m, e5 ?_, e4⟩, by rw [e3]; simp⟩
  rcases hk with hk | hk | ⟨_, _, hk⟩ <;> rw [hk] <;> cases out <;> rfl

/-- The hypotheses of C67 are met by a `Blink` holding several blocks, whose first destructor panics, and by one that borrows. -/
example : (∃ b0 b b' bk resp, BReach b0 b bk ∧ b0.kind = .owned ∧ b0.legal bk .dropBlink ∧ bstep b .dropBlink = .ok (resp, b') ∧
      resp ≠ .aborted ∧ resp ≠ .unit ∧ bk.refs = bdemoRefs ∧ (openBlocks b.s.w.log).length ≠ 0) ∧
    ∃ b0 b b' bk resp, BReach b0 b bk ∧
      (b0.kind = .refMut ∨ b0.kind = .shared ∨ ∃ exact others, b0.kind = .any exact true others) ∧ b0.legal bk .dropBlink ∧ bstep b .dropBlink = .ok (resp, b') ∧
      bk.refs = bdemoRefs := by
  refine ⟨?_, ?_⟩
  · obtain ⟨b0, b, bk, r, b', bk', rfl, h1, h2, h3, h4, h5, h6⟩ := bdemo_at (kind := .owned) (panics := [1]) (debug := true) (ops := bdemoOps)
      (op := .dropBlink) (f := fun b bk r _ _ => decide (r ≠ .aborted ∧ r ≠ .unit ∧ bk.refs = bdemoRefs ∧ (openBlocks b.s.w.log).length ≠ 0)) (by decide +kernel)
    rw [decide_eq_true_eq] at h6
    exact ⟨_, b, b', bk, r, h1, (by simp [bdemo]), h3, h4, h6⟩
  · obtain ⟨b0, b, bk, r, b', bk', rfl, h1, h2, h3, h4, h5, h6⟩ := bdemo_at (kind := .shared) (panics := []) (debug := true) (ops := bdemoOps)
      (op := .dropBlink) (f := fun _ bk _ _ _ => decide (bk.refs = bdemoRefs)) (by decide +kernel)
    rw [decide_eq_true_eq] at h6
    exact ⟨_, b, b', bk, r, h1, (by simp [bdemo]), h3, h4, h6⟩

/-! ### C68 -/

/-- The iterator answers a question of `from_iter` (no model counterpart: a class of actions). -/
def BOp.answers : BOp → Prop
  | .hint _ _ => True
  | .next _ => True
  | .nth _ => True
  | _ => False

/-- Items the iterator yielded in a history of answers. -/
def yielded (tr : List (BOp × BResp)) : Nat :=
  tr.countP fun e => match e.1 with
    | .next (some _) => true
    | .nth (some _) => true
    | _ => false

/-- How many more answers without an item a waiting call can use. -/
def Frame.rank : Frame → Nat
  | .iter _ _ _ .hint0 => 2
  | .iter _ _ _ (.hint _) => 2
  | .iter _ _ _ (.fill _) => 1
  | .iter _ _ _ .one => 0
  | .drain _ _ _ _ .hint => 2
  | .drain _ _ _ _ .next => 1
  | .drain _ _ _ _ (.nth _) => 1
  | .init .. => 0

/-- The rank of the topmost waiting call. -/
def topRank (b : BState) : Nat :=
  match b.frames with
  | f :: _ => f.rank
  | [] => 0

theorem wait_rank {b b' : BState} {f : Frame} {q : Ask} (h : b.wait f = .ok (.wait q, b')) : topRank b' = f.rank := by
  unfold BState.wait at h
  injection h with h
  injection h with _ h
  rw [← h]
  rfl

theorem fillPhase_rank (r : Nat) (nd : Bool) (g : Guard) (c l : Nat) : (Frame.iter r nd g (fillPhase c l)).rank ≤ 1 := by
  unfold fillPhase
  split
  · exact Nat.le_refl _
  · exact Nat.zero_le _

theorem iterHint_rank {b b' : BState} {r nd g ph lower upper q} (h : b.iterHint r nd g ph lower upper = .ok (.wait q, b')) :
    (Frame.iter r nd g ph).rank = 2 ∧ topRank b' ≤ 1 := by
  unfold BState.iterHint at h
  split at h
  · refine ⟨rfl, ?_⟩
    split at h
    · obtain ⟨⟨o, b1⟩, _, h⟩ := ebind_split h
      cases o with
      | some g => rw [wait_rank h]; exact fillPhase_rank ..
      | none =>
        obtain ⟨a, _, h2⟩ := ebind_split h
        cases h2
    · rw [wait_rank h]; exact Nat.zero_le _
  · refine ⟨rfl, ?_⟩
    split at h
    · obtain ⟨a, _, h2⟩ := ebind_split h
      cases h2
    · obtain ⟨⟨o, b1⟩, _, h⟩ := ebind_split h
      cases o with
      | some g => rw [wait_rank h]; exact fillPhase_rank ..
      | none =>
        obtain ⟨a, _, h2⟩ := ebind_split h
        cases h2
  · cases h

theorem iterNext_rank {b b' : BState} {r nd g ph x q} (h : b.iterNext r nd g ph x = .ok (.wait q, b')) :
    topRank b' ≤ 2 ∧ (x = none → topRank b' + 1 ≤ (Frame.iter r nd g ph).rank) := by
  unfold BState.iterNext at h
  split at h
  · split at h
    · cases h
    · split at h
      · obtain ⟨_, _, h⟩ := ebind_split h
        rw [wait_rank h]
        refine ⟨Nat.le_trans (fillPhase_rank ..) (by decide), fun hc => by cases hc⟩
      · simp only at h
        split at h
        · obtain ⟨_, _, h⟩ := ebind_split h
          rw [wait_rank h]
          exact ⟨Nat.zero_le _, fun _ => Nat.le_refl _⟩
        · rw [wait_rank h]
          exact ⟨Nat.zero_le _, fun _ => Nat.le_refl _⟩
  · split at h
    · obtain ⟨a, _, h2⟩ := ebind_split h
      cases h2
    · rw [wait_rank h]
      exact ⟨Nat.le_refl _, fun hc => by cases hc⟩
  · cases h

theorem drainDone_wait {b b' : BState} {r nd blk n q} (h : b.drainDone r nd blk n = .ok (.wait q, b')) : False := by
  unfold BState.drainDone at h
  split at h
  · cases h
  · obtain ⟨_, _, h⟩ := ebind_split h
    obtain ⟨_, _, h⟩ := ebind_split h
    cases h

theorem drainHint_rank {b b' : BState} {r nd blk n lower q} (h : b.drainHint r nd blk n lower = .ok (.wait q, b')) :
    topRank b' ≤ 1 := by
  unfold BState.drainHint at h
  split at h
  · rw [wait_rank h]; exact Nat.le_refl _
  · obtain ⟨_, _, h⟩ := ebind_split h
    rw [wait_rank h]; exact Nat.le_refl _

theorem drainNext_rank {b b' : BState} {r nd blk n k x q} (h : b.drainNext r nd blk n k x = .ok (.wait q, b')) :
    x ≠ none ∧ topRank b' ≤ 2 := by
  unfold BState.drainNext at h
  split at h
  · exact (drainDone_wait h).elim
  · refine ⟨by simp, ?_⟩
    simp only at h
    split at h
    · cases h
    · split at h
      · obtain ⟨_, _, h⟩ := ebind_split h
        rw [wait_rank h]; exact Nat.le_refl _
      · split at h
        · exact (drainDone_wait h).elim
        · rw [wait_rank h]; exact Nat.le_refl _

/-- An answer without an item lowers the rank; an answer with one leaves it at most 2. -/
theorem answer_rank {b b' : BState} {op : BOp} {q : Ask} (ha : op.answers) (h : bstep b op = .ok (.wait q, b')) :
    topRank b' + 1 ≤ topRank b + 3 * yielded [(op, .wait q)] := by
  have hy : ∀ v r, yielded [(.next (some v), r)] = 1 ∧ yielded [(.nth (some v), r)] = 1 := fun _ _ => ⟨rfl, rfl⟩
  cases op <;> try (cases ha; done)
  case hint lower upper =>
    simp only [bstep] at h
    split at h
    · rename_i f fs hf
      have : topRank b = f.rank := by unfold topRank; rw [hf]
      rw [this]
      simp only [BState.resume] at h
      split at h
      · have := iterHint_rank h; omega
      · have := drainHint_rank h
        simp only [Frame.rank]; omega
      · cases h
    · cases h
  case next x =>
    simp only [bstep] at h
    split at h
    · rename_i f fs hf
      have : topRank b = f.rank := by unfold topRank; rw [hf]
      rw [this]
      simp only [BState.resume] at h
      split at h
      · have := iterNext_rank h
        cases x with
        | none => have := this.2 rfl; omega
        | some v => rw [(hy v _).1]; omega
      · have := drainNext_rank h
        cases x with
        | none => exact absurd rfl this.1
        | some v => rw [(hy v _).1]; omega
      · cases h
    · cases h
  case nth x =>
    simp only [bstep] at h
    split at h
    · rename_i f fs hf
      simp only [BState.resume] at h
      split at h
      · have := drainNext_rank h
        cases x with
        | none => exact absurd rfl this.1
        | some v => rw [(hy v _).2]; omega
      · cases h
    · cases h

theorem start_rank {b b' : BState} {e r q} (h : bstep b (.fromIter e r) = .ok (.wait q, b')) : topRank b' = 2 := by
  simp only [bstep, BState.start] at h
  split at h
  · split at h
    · exact wait_rank h
    · obtain ⟨⟨o, b1⟩, _, h⟩ := ebind_split h
      cases o with
      | none => cases h
      | some blk => exact wait_rank h
  · exact wait_rank h

theorem yielded_append (tr tr' : List (BOp × BResp)) : yielded (tr ++ tr') = yielded tr + yielded tr' := List.countP_append ..

/-- C68: a call of `from_iter` asks its iterator a bounded number of times: while it is still waiting, the iterator has answered
at most three times per item yielded, and twice more. So the call ends if the iterator yields finitely many items; the iterator
may give any size hints and may yield items after `None`. (In this statement the iterator does not use the `Blink` between two
answers.) -/
theorem C68_from_iter_bounded {b0 b b1 b2 : BState} {bk bk1 bk2 : BBook} {e r q} {tr : List (BOp × BResp)}
    (_h : BReachSafe b0 b bk) (_hl : b0.safe bk (.fromIter e r)) (hs : bstep b (.fromIter e r) = .ok (.wait q, b1))
    (_ha : BAfter b0.types b0.kind bk (.fromIter e r) (.wait q) bk1) (ht : BSteps b0 b0.safe b1 bk1 tr b2 bk2)
    (hw : ∀ a ∈ tr, a.1.answers ∧ ∃ q, a.2 = .wait q) : tr.length ≤ 3 * yielded tr + 2 := by
  suffices tr.length + topRank b2 ≤ 3 * yielded tr + 2 by omega
  induction ht with
  | nil => rw [start_rank hs]; exact Nat.le_refl _
  | snoc h ho hl hs1 ha ih =>
    rename_i op resp _ _
    have ih := ih fun a hm => hw a (List.mem_append_left _ hm)
    obtain ⟨h1, q1, h2⟩ := hw (op, resp) (List.mem_append_right _ List.mem_cons_self)
    simp only at h1 h2
    subst h2
    have := answer_rank h1 hs1
    rw [yielded_append, List.length_append]
    simp only [List.length_singleton]
    omega

/-- Two items, with `None` before each of them and after the second. -/
def stutterOps : List BOp :=
  [.hint 1 none, .next none, .next (some 1), .hint 0 none, .next none, .next (some 2), .hint 0 none, .next none]

/-- Is this an answer after which the call waits? (used to check the example) -/
def isAnswerB : BOp × BResp → Bool
  | (.hint _ _, .wait _) => true
  | (.next _, .wait _) => true
  | (.nth _, .wait _) => true
  | _ => false

theorem isAnswerB_sound {a : BOp × BResp} (h : isAnswerB a = true) : a.1.answers ∧ ∃ q, a.2 = .wait q := by
  unfold isAnswerB at h
  split at h <;> first | exact ⟨trivial, _, rfl⟩ | cases h

/-- The hypotheses of C68 are met, and the bound is attained: eight answers for two items. -/
example : ∃ b0 b b1 b2 bk bk1 bk2 q tr, BReachSafe b0 b bk ∧ b0.safe bk (.fromIter .noDrop 4) ∧
    bstep b (.fromIter .noDrop 4) = .ok (.wait q, b1) ∧ BAfter b0.types b0.kind bk (.fromIter .noDrop 4) (.wait q) bk1 ∧
    BSteps b0 b0.safe b1 bk1 tr b2 bk2 ∧ (∀ a ∈ tr, a.1.answers ∧ ∃ q, a.2 = .wait q) ∧ tr.length = 8 ∧ yielded tr = 2 ∧
    bk.refs.length = 2 := by
  obtain ⟨b, bk, r, b1, bk1, h1, h2, h3, h4, h5, h6⟩ := of_bdemoAt_safe (bdemo_start [512, 2048, 4096] .owned [] true)
    (ops := bdemoOps.take 2) (op := .fromIter .noDrop 4) (f := fun _ bk r b1 bk1 => match r with
      | .wait _ => match bexecAll (bdemo [512, 2048, 4096] .owned [] true) true b1 bk1 stutterOps with
        | some (tr, _, _) => tr.all isAnswerB && decide (tr.length = 8 ∧ yielded tr = 2 ∧ bk.refs.length = 2)
        | none => false
      | _ => false) (by decide +kernel)
  split at h6
  · rename_i q
    split at h6
    · rename_i tr b2 bk2 h7
      rw [Bool.and_eq_true, decide_eq_true_eq, List.all_eq_true] at h6
      exact ⟨_, b, b1, b2, bk, bk1, bk2, q, tr, h1, h3, h4, h5, bexecAll_sound h7, fun a ha => isAnswerB_sound (h6.1 a ha), h6.2⟩
    · cases h6
  · cases h6

end Blink
