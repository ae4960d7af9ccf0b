import Verif.Proofs.BlinkMore
/-
  The invariant holds in all reachable states; what one action does, for all actions.
-/
namespace Blink

theorem BStart.wk {b : BState} (h : BStart b) (m0 : Nat → Byte) : Wk b b ⟨[], [], []⟩ [] [] [] [] m0 where
  start := h
  types := rfl
  kind := rfl
  dtors := rfl
  dbg := rfl
  inv := by
    unfold brest
    rw [h.frames]
    cases hk : b.kind.isAny with
    | false => exact .arena hk (h.alloc hk).inv
    | true =>
      cases hkk : b.kind with
      | any e kp o =>
        have := h.others e kp o hkk
        subst this
        exact .any e kp rfl h.world ⟨h.world, rfl, rfl, ⟨[], [], List.Perm.refl _, (by simp), List.Perm.refl _⟩, SameIn.refl _ _⟩
      | _ => rw [hkk] at hk; cases hk
  refs := rfl
  ok := by simp
  chain := h.root
  adds := by simp
  frames := by rw [h.frames]; trivial
  kin := by simp
  keep := by intro o ho; cases ho

theorem Wk.rebase {b0 b bk cs items E K m0} (h : Wk b0 b bk cs items E K m0) (K' : List Owned) (hK : ∀ o ∈ K', o ∈ brest b0 b bk items) :
    Wk b0 b bk cs items E K' b.s.w.mem :=
  { h with kin := hK, keep := Keep.refl _ _ }

theorem isDrop_of {op : BOp} (h : op.drops) : op.isDrop = true := by cases op <;> first | rfl | exact h.elim

theorem BLegal.drop_frames {types F dbg bk op} (hl : BLegal types F dbg bk op) (hd : op.isDrop = true) : bk.frames = [] := by
  cases hl with
  | reset h => exact h
  | send h => exact h
  | dropAll h => exact h
  | dropBlink h => exact h
  | _ => cases hd

/-- An action either fails because the underlying allocator broke its contract, or succeeds and keeps the invariant. -/
theorem Wk.step {b0 b bk cs items} {m0 : Nat → Byte} (h : Wk b0 b bk cs items [] [] m0) {op : BOp} (hl : b0.legal bk op) :
    (∃ e, BadAnswer b.s.w e ∧ bstep b op = .error e) ∨
    ∃ resp b' cs' items', bstep b op = .ok (resp, b') ∧ ∀ bk', BAfter b0.types b0.kind bk op resp bk' → Wk b0 b' bk' cs' items' [] [] m0 := by
  have hq := hl.2
  have hl : BLegal b0.types b0.s.w.held b0.s.w.debug bk op := hl.1
  have other : ∀ {resp b' cs' items'}, (∀ o, op ≠ .direct o) → Wk b0 b' (bookAfter b0.types b0.kind bk op resp) cs' items' [] [] m0 →
      ∀ bk', BAfter b0.types b0.kind bk op resp bk' → Wk b0 b' bk' cs' items' [] [] m0 := by
    intro resp b' cs' items' hd hw bk' ha
    cases ha with
    | direct => exact absurd rfl (hd _)
    | other => exact hw
  by_cases h1 : op.isStart = true
  · rcases h.startStep h1 hl hq with hb | ⟨resp, b', cs', items', e1, _, _, e2, _⟩
    · exact .inl hb
    · exact .inr ⟨resp, b', cs', items', e1, other (fun o hc => by rw [hc] at h1; cases h1) e2⟩
  by_cases h2 : op.isRet = true
  · cases hbf : bk.frames with
    | nil => exact absurd hbf (legal_frames h2 hl)
    | cons fb fbs =>
      rcases h.retStep h2 hl hq hbf (by simp) with hb | ⟨resp, b', cs', items', e1, _, _, e2, _⟩
      · exact .inl hb
      · exact .inr ⟨resp, b', cs', items', e1, other (fun o hc => by rw [hc] at h2; cases h2) e2⟩
  by_cases h3 : op.isDrop = true
  · obtain ⟨out, evs, m, b', cs', e1, _, _, _, _, _, _, _, e2⟩ := h.dropStep h3 (hl.drop_frames h3) (by simp)
    exact .inr ⟨_, b', cs', [], e1, other (fun o hc => by rw [hc] at h3; cases h3) e2⟩
  cases hl with
  | copySlice hs hv =>
    rcases h.copyStep hs hv with hb | ⟨resp, b', cs', items', e1, _, _, e2, _⟩
    · exact .inl hb
    · exact .inr ⟨resp, b', cs', items', e1, other (by simp) e2⟩
  | uninit hv =>
    rcases h.uninitStep hv with hb | ⟨resp, b', cs', items', e1, _, _, e2, _⟩
    · exact .inl hb
    · exact .inr ⟨resp, b', cs', items', e1, other (by simp) e2⟩
  | direct hd hn =>
    rcases h.directStep hd hn hq.sized (by simp) with hb | ⟨r, s', cs', e1, _, e2⟩
    · exact .inl hb
    · refine .inr ⟨_, _, cs', items, e1, fun bk' ha => ?_⟩
      cases ha with
      | direct ha => exact e2 _ ha
      | other hc => exact absurd rfl (hc _)
  | write hr hx hv =>
    obtain ⟨e1, e2⟩ := h.writeStep hr hx hv
    exact .inr ⟨_, _, cs, items, e1, other (by simp) (e2 m0)⟩
  | value => exact absurd rfl h1
  | «with» => exact absurd rfl h1
  | fromIter => exact absurd rfl h1
  | ret => exact absurd rfl h2
  | panic => exact absurd rfl h2
  | hint => exact absurd rfl h2
  | next => exact absurd rfl h2
  | nth => exact absurd rfl h2
  | reset => exact absurd rfl h3
  | send => exact absurd rfl h3
  | dropAll => exact absurd rfl h3
  | dropBlink => exact absurd rfl h3

theorem Wk.steps {b0 b bk cs items} {m0 : Nat → Byte} (h : Wk b0 b bk cs items [] [] m0) {tr b' bk'}
    (hs : BSteps b0 b0.legal b bk tr b' bk') : ∃ cs' items', Wk b0 b' bk' cs' items' [] [] m0 := by
  induction hs with
  | nil => exact ⟨cs, items, h⟩
  | snoc _ _ hl hst ha ih =>
    obtain ⟨cs1, items1, h1⟩ := ih
    rcases h1.step hl with ⟨e, _, he⟩ | ⟨resp, b2, cs2, items2, e1, e2⟩
    · rw [he] at hst; cases hst
    · rw [e1] at hst
      injection hst with hst
      injection hst with g1 g2
      subst g1 g2
      exact ⟨cs2, items2, e2 _ ha⟩

theorem BReach.wk {b0 b bk} (h : BReach b0 b bk) : ∃ cs items, Wk b0 b bk cs items [] [] b.s.w.mem := by
  obtain ⟨hs, tr, hr⟩ := h
  obtain ⟨cs, items, hw⟩ := (hs.wk b.s.w.mem).steps hr
  exact ⟨cs, items, hw⟩

end Blink
