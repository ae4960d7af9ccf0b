import Verif.Props.Cache
/-
  Property theorems about `BlinkAllocCache`: progress of single calls (C30). `C30_somebody_moves` says that the threads do not
  block each other for ever; here: a call makes a bounded number of steps, whatever the other threads do.
-/
namespace Blink

/-- How many steps thread `t` has made since its last call began. -/
def ownSteps (t : Nat) (tr : List (CAct × Option CRet)) : Nat :=
  tr.foldl (fun n e => match e.1 with
    | .call u _ => if u = t then 0 else n
    | .go u => if u = t then n + 1 else n) 0

theorem ownSteps_snoc (t : Nat) (tr : List (CAct × Option CRet)) (a : CAct) (r : Option CRet) :
    ownSteps t (tr ++ [(a, r)]) = match a with
      | .call u _ => if u = t then 0 else ownSteps t tr
      | .go u => if u = t then ownSteps t tr + 1 else ownSteps t tr := by
  simp only [ownSteps, List.foldl_append, List.foldl_cons, List.foldl_nil]

/-- An upper bound of the number of steps to the end of the call. -/
def CPc.rank : CPc → Nat
  | .idle => 0
  | .ret _ _ => 1
  | .popTake _ | .popCheck | .pushSlow _ => 2
  | .popStore | .pushWr _ => 3
  | .popAdd | .pushUnlock _ => 4
  | _ => 5

theorem CGo.rank {s : CS} {t : Nat} {r s'} (h : CGo s t r s') : (s'.pcs t).rank < (s.pcs t).rank ∧ (r = none → 0 < (s'.pcs t).rank) := by
  cases h
  case add hp =>
    rw [CS.setPc_pcs, put_same, hp]
    split
    · simp [CPc.rank]
    · split <;> simp [CPc.rank]
  all_goals
    rw [CS.setPc_pcs, put_same, ‹s.pcs t = _›]
    simp [CPc.rank]

theorem CGo.others {s : CS} {t : Nat} {r s'} (h : CGo s t r s') {u : Nat} (hu : u ≠ t) : s'.pcs u = s.pcs u := by
  cases h <;> rw [CS.setPc_pcs, put_ne _ _ hu]

theorem CInv.goes {T U s K} (h : CInv T U s K) {t : Nat} {r s'} (hs : cstep s (.go t) = .ok (some (r, s'))) : CGo s t r s' := by
  have hs : Blink.cgo s t = _ := hs
  rcases h.cgo t with h1 | ⟨r1, s1, h1, hg⟩
  · rw [h1] at hs; cases hs
  · rw [h1] at hs; cases hs; exact hg

theorem CRun.steps {T U tr s K} (hT : T ≤ ISIZE) (h : CRun T U tr s K) (t : Nat) :
    ownSteps t tr + (s.pcs t).rank ≤ 5 := by
  induction h with
  | nil => exact Nat.zero_le _
  | @snoc tr s K a r s' K' h hl hs ha ih =>
    rw [ownSteps_snoc]
    cases a with
    | call u c =>
      simp only [cstep] at hs
      split at hs
      · cases hs
        by_cases hu : u = t
        · subst hu
          rw [CS.setPc_pcs, put_same]
          cases c <;> simp [CPc.rank]
        · dsimp only
          rw [if_neg hu, CS.setPc_pcs, put_ne _ _ (Ne.symm hu)]
          exact ih
      · cases hs
    | go u =>
      have hg := (h.inv hT).goes hs
      by_cases hu : u = t
      · subst hu
        dsimp only
        rw [if_pos rfl]
        have := hg.rank.1
        omega
      · dsimp only
        rw [if_neg hu, hg.others (Ne.symm hu)]
        exact ih

/-- C30 (progress): whatever the other threads do, a thread has made at most four steps of an unfinished call, and the fifth step
at the latest ends it: there is no loop in `push` and `pop`. -/
theorem C30_bounded_steps {T U tr s K} (hT : T ≤ ISIZE) (h : CRun T U tr s K) (t : Nat) :
    ownSteps t tr ≤ 5 ∧ (K.busy t ≠ none → ownSteps t tr ≤ 4) := by
  have h1 := h.steps hT t
  refine ⟨by omega, ?_⟩
  intro hb
  have h2 := (h.inv hT).thr t
  have h3 : 0 < (s.pcs t).rank := by
    generalize s.pcs t = pc at h2
    generalize K.busy t = bz at h2 hb
    cases h2 <;> simp_all [CPc.rank]
  omega

/-- C30 (progress): a thread that executes a call can always make its next step if no other thread holds the lock (and the array is
not full to the last addressable slot). -/
theorem C30_moves {T U tr s K} (hT : T ≤ ISIZE) (h : CRun T U tr s K) (hfull : s.popArr.length < ISIZE_MAX) {t : Nat}
    (hb : K.busy t ≠ none) (hr : ∀ u, u ∈ s.readers → u = t) (hw : ∀ u, s.writer = some u → u = t) :
    ∃ r s', cstep s (.go t) = .ok (some (r, s')) := by
  have hI := h.inv hT
  have hthr := hI.thr t
  show ∃ r s', cgo s t = _
  obtain ⟨pc, hpc⟩ : ∃ pc, s.pcs t = pc := ⟨_, rfl⟩
  obtain ⟨bz, hbz⟩ : ∃ bz, K.busy t = bz := ⟨_, rfl⟩
  have noW : (s.pcs t).holdsW = false → s.writer = none := by
    intro hn
    cases hx : s.writer with
    | none => rfl
    | some u => obtain rfl := hw u hx; have := (hI.lock.wr u).mp hx; rw [hn] at this; cases this
  have noR : (s.pcs t).holdsR = false → s.readers = [] := by
    intro hn
    cases hx : s.readers with
    | nil => rfl
    | cons u l =>
      have hm : u ∈ s.readers := by rw [hx]; exact List.mem_cons_self
      obtain rfl := hr u hm
      have := (hI.lock.rd u).mp hm
      rw [hn] at this; cases this
  rw [hpc, hbz] at hthr
  rw [hbz] at hb
  unfold cgo
  rw [hpc]
  rw [hpc] at noW noR
  cases hthr with
  | idle => exact absurd rfl hb
  | popRd => exact ⟨_, _, by simp only [noW rfl, if_true]; rfl⟩
  | pushRd => exact ⟨_, _, by simp only [noW rfl, if_true]; rfl⟩
  | pushWr => exact ⟨_, _, by simp only [noW rfl, noR rfl, and_self, if_true]; rfl⟩
  | popAdd => exact ⟨_, _, rfl⟩
  | popTake =>
    obtain ⟨_, b, hb⟩ := hI.take t _ hpc
    exact ⟨_, _, by simp only [hb]; rfl⟩
  | popStore => exact ⟨_, _, rfl⟩
  | popCheck => exact ⟨_, _, by simp only [hI.np, if_true]; rfl⟩
  | popRet => exact ⟨_, _, rfl⟩
  | pushUnlock => exact ⟨_, _, rfl⟩
  | pushSlow =>
    dsimp only
    rw [ebind_ok hI.flush]
    dsimp only
    rw [if_pos (by rw [List.length_drop]; omega)]
    exact ⟨_, _, rfl⟩
  | pushRet => exact ⟨_, _, rfl⟩

/-- A step that does not end the call keeps the lock away from other threads, and does not fill the array except by the last step
before the return. -/
theorem CGo.keeps {s : CS} {t : Nat} {s'} (h : CGo s t none s') (hr : ∀ u, u ∈ s.readers → u = t)
    (hw : ∀ u, s.writer = some u → u = t) :
    (∀ u, u ∈ s'.readers → u = t) ∧ (∀ u, s'.writer = some u → u = t) ∧
      (s'.popArr.length ≤ s.popArr.length ∨ (s'.pcs t).rank = 1) := by
  cases h
  case rdEmpty | rd | pushRd =>
    refine ⟨?_, hw, .inl (Nat.le_refl _)⟩
    intro u hu
    rcases List.mem_cons.mp hu with h1 | h1
    · exact h1
    · exact hr u h1
  case pushUnlock => exact ⟨fun u hu => hr u (List.mem_of_mem_erase hu), hw, .inl (Nat.le_refl _)⟩
  case pushWr => exact ⟨hr, fun u hu => (Option.some.inj hu).symm, .inl (Nat.le_refl _)⟩
  case pushSlow => exact ⟨hr, hw, .inr (by rw [CS.setPc_pcs, put_same]; rfl)⟩
  case take => exact ⟨hr, hw, .inl (by simp [CS.setPc])⟩
  all_goals exact ⟨hr, hw, .inl (Nat.le_refl _)⟩

/-- Whatever a call returns, the book can be continued. -/
theorem CAfter.total (K : CBook) (t : Nat) (r : Option CRet) : ∃ K', CAfter K (.go t) r K' ∧ (r = none → K' = K) := by
  match r with
  | none => exact ⟨_, .inside, fun _ => rfl⟩
  | some .unit => exact ⟨_, .done, nofun⟩
  | some (.got none) => exact ⟨_, .empty, nofun⟩
  | some (.got (some b)) => exact ⟨_, .got, nofun⟩

/-- C30 (progress): if a thread executes a call, no other thread holds the lock, and it is scheduled alone, then its call returns
after at most four further steps. -/
theorem C30_finishes_alone {T U tr s K} (hT : T ≤ ISIZE) (h : CRun T U tr s K) (hfull : s.popArr.length < ISIZE_MAX) {t : Nat}
    (hb : K.busy t ≠ none) (hr : ∀ u, u ∈ s.readers → u = t) (hw : ∀ u, s.writer = some u → u = t) :
    ∃ n r s' K', n ≤ 4 ∧ CRun T U (tr ++ List.replicate n (.go t, none) ++ [(.go t, some r)]) s' K' ∧ K'.busy t = none := by
  suffices hh : ∀ m, ∀ {tr s K}, CRun T U tr s K → (s.popArr.length < ISIZE_MAX ∨ (s.pcs t).rank = 1) → K.busy t ≠ none →
      (∀ u, u ∈ s.readers → u = t) → (∀ u, s.writer = some u → u = t) → (s.pcs t).rank ≤ m + 1 →
      ∃ n r s' K', n ≤ m ∧ CRun T U (tr ++ List.replicate n (.go t, none) ++ [(.go t, some r)]) s' K' ∧ K'.busy t = none by
    exact hh 4 h (.inl hfull) hb hr hw (by generalize s.pcs t = pc; cases pc <;> simp [CPc.rank])
  intro m
  induction m with
  | zero =>
    intro tr s K h hfull hb hr hw hm
    obtain ⟨r, s', hs⟩ : ∃ r s', cstep s (.go t) = .ok (some (r, s')) := by
      rcases hfull with hfull | h1
      · exact C30_moves hT h hfull hb hr hw
      · show ∃ r s', cgo s t = _
        generalize hpc : s.pcs t = pc at h1
        cases pc <;> simp [CPc.rank] at h1
        unfold cgo
        rw [hpc]
        dsimp only
        split <;> exact ⟨_, _, rfl⟩
    have hg := (h.inv hT).goes hs
    obtain ⟨K', ha, _⟩ := CAfter.total K t r
    cases r with
    | none => have := hg.rank; have := this.2 rfl; omega
    | some r => exact ⟨0, r, s', K', Nat.le_refl _, by simpa using h.snoc .go hs ha, by cases ha <;> exact put_same _ _ _⟩
  | succ m ih =>
    intro tr s K h hfull hb hr hw hm
    obtain ⟨r, s', hs⟩ : ∃ r s', cstep s (.go t) = .ok (some (r, s')) := by
      rcases hfull with hfull | h1
      · exact C30_moves hT h hfull hb hr hw
      · show ∃ r s', cgo s t = _
        generalize hpc : s.pcs t = pc at h1
        cases pc <;> simp [CPc.rank] at h1
        unfold cgo
        rw [hpc]
        dsimp only
        split <;> exact ⟨_, _, rfl⟩
    have hg := (h.inv hT).goes hs
    obtain ⟨K', ha, hK⟩ := CAfter.total K t r
    have hk := hg.rank
    cases r with
    | none =>
      obtain ⟨k1, k2, k3⟩ := hg.keeps hr hw
      have hne := hk.2 rfl
      obtain rfl := hK rfl
      obtain ⟨n, r, s2, K2, hn, h2, hb2⟩ := ih (h.snoc .go hs ha) (by rcases k3 with k3 | k3
                                                                      · rcases hfull with hf | hf
                                                                        · exact .inl (by omega)
                                                                        · omega
                                                                      · exact .inr k3) hb k1 k2 (by omega)
      refine ⟨n + 1, r, s2, K2, by omega, ?_, hb2⟩
      rw [List.replicate_succ]
      simpa using h2
    | some r => exact ⟨0, r, s', K', Nat.zero_le _, by simpa using h.snoc .go hs ha, by cases ha <;> exact put_same _ _ _⟩

/-- Non-vacuity for the three theorems: thread 0 pops and thread 1 pushes, both have just been called; nobody holds the lock, one
allocator is inside. -/
example : ∃ tr s K, CRun 3 [10, 11] tr s K ∧ s.popArr.length < ISIZE_MAX ∧ s.popArr = [some 11] ∧ K.busy 0 = some .pop ∧
    K.busy 1 = some (.push 10) ∧ s.readers = [] ∧ s.writer = none := by
  obtain ⟨tr, s, K, h, hf⟩ := of_cdemoAt (T := 3) (U := [10, 11]) (as := cdemoActs ++ [.call 0 .pop, .call 1 (.push 10)])
    (f := fun tr s K => decide (s.popArr = [some 11]) && decide (K.busy 0 = some .pop) && decide (K.busy 1 = some (.push 10)) &&
      decide (s.readers = []) && decide (s.writer = none)) (by decide +kernel)
  simp only [Bool.and_eq_true, decide_eq_true_eq] at hf
  obtain ⟨⟨⟨⟨h1, h2⟩, h3⟩, h4⟩, h5⟩ := hf
  exact ⟨tr, s, K, h, by rw [h1]; decide, h1, h2, h3, h4, h5⟩

/-- The bound is reached: a `pop` that finds the counter at `isize::MAX` makes five steps. -/
example : ∃ tr s K, CRun 1 [7] tr s K ∧ K.busy 0 ≠ none ∧ ownSteps 0 tr = 4 := by
  obtain ⟨tr, h⟩ := exhausted_reach (ISIZE_MAX - 1) (by decide)
  rw [show ISIZE_MAX - 1 + 1 = ISIZE_MAX by decide] at h
  have h1 := h.snoc (a := .call 0 .pop) (.pop (by decide) rfl) rfl .pop
  have h2 := h1.snoc (a := .go 0) .go rfl .inside
  have h3 := h2.snoc (a := .go 0) .go (s' := { exhausted (ISIZE_MAX + 1) with readers := [0], pcs := fun u => if u = 0 then .popStore else .idle })
    (by
      have : fetchAdd1 ISIZE_MAX = ISIZE_MAX + 1 := fetchAdd1_eq (by decide)
      have h0 : ¬ ISIZE_MAX < 1 := by decide
      simp only [cstep, cgo, CS.setPc, exhausted, List.length_singleton, if_pos, this, if_neg h0, pure, Except.pure,
        List.isEmpty_cons, Bool.false_eq_true, if_false, Nat.le_refl]
      congr 5
      funext u
      by_cases hu : u = 0 <;> simp [hu]) .inside
  have h4 := h3.snoc (a := .go 0) .go rfl .inside
  have h5 := h4.snoc (a := .go 0) .go rfl .inside
  refine ⟨_, _, _, h5, ?_, ?_⟩
  · simp [put]
  · simp only [ownSteps_snoc, if_true, Nat.zero_add]

end Blink
