import Verif.Proofs.Contract
import Verif.Spec.Shared
/-
  What one user of a shared allocator sees.
-/
namespace Blink

theorem mineOf_true {α} (tr : List (Bool × α)) (a : α) : mineOf (tr ++ [(true, a)]) = mineOf tr ++ [a] := by
  simp [mineOf, List.filter_append]

theorem mineOf_false {α} (tr : List (Bool × α)) (a : α) : mineOf (tr ++ [(false, a)]) = mineOf tr := by
  simp [mineOf, List.filter_append]

/-! ### One thread -/

theorem Legal.mono {L W : List Owned} {op} (h : Legal L op) (hs : ∀ b ∈ L, b ∈ W) : Legal W op := by
  cases h with
  | allocate h => exact .allocate h
  | allocateZeroed h => exact .allocateZeroed h
  | resize hb hf h => exact .resize (hs _ hb) hf h
  | growZeroed hb hf h hz => exact .growZeroed (hs _ hb) hf h hz
  | deallocate hb hf => exact .deallocate (hs _ hb) hf
  | reset => exact .reset
  | resetFinal => exact .resetFinal
  | write hb hx => exact .write (hs _ hb) hx

theorem erase_split {W L R : List Owned} (hp : W.Perm (L ++ R)) {b : Owned} (hb : b ∈ L) : (W.erase b).Perm (L.erase b ++ R) := by
  have h := hp.erase b
  rwa [List.erase_append_left R hb] at h

/-- Bookkeeping for all follows bookkeeping for one. -/
theorem After.widen {L R Z W L' : List Owned} {op r} (h : After L op r L') (hp : W.Perm (L ++ (R ++ Z))) (hq : op.resets = true → R = []) :
    ∃ W' Z', After W op r W' ∧ W'.Perm (L' ++ (R ++ Z')) ∧ (op.resets = false → Z' = Z) := by
  have sub : ∀ {b}, b ∈ L → b ∈ W := fun hb => hp.mem_iff.mpr (List.mem_append_left _ hb)
  cases h with
  | allocOk => exact ⟨_, Z, .allocOk, hp.cons _, fun _ => rfl⟩
  | allocErr => exact ⟨_, Z, .allocErr, hp, fun _ => rfl⟩
  | zeroedOk => exact ⟨_, Z, .zeroedOk, hp.cons _, fun _ => rfl⟩
  | zeroedErr => exact ⟨_, Z, .zeroedErr, hp, fun _ => rfl⟩
  | resizeOk hb hf => exact ⟨_, Z, .resizeOk (sub hb) hf, (erase_split hp hb).cons _, fun _ => rfl⟩
  | resizeErr => exact ⟨_, Z, .resizeErr, hp, fun _ => rfl⟩
  | growZeroedOk hb hf => exact ⟨_, Z, .growZeroedOk (sub hb) hf, (erase_split hp hb).cons _, fun _ => rfl⟩
  | growZeroedErr => exact ⟨_, Z, .growZeroedErr, hp, fun _ => rfl⟩
  | deallocate hb hf => exact ⟨_, Z, .deallocate (sub hb) hf, erase_split hp hb, fun _ => rfl⟩
  | reset => exact ⟨_, [], .reset, by rw [hq rfl]; exact .refl _, fun h => nomatch h⟩
  | resetFinal => exact ⟨_, [], .resetFinal, by rw [hq rfl]; exact .refl _, fun h => nomatch h⟩
  | write => exact ⟨_, Z, .write, hp, fun _ => rfl⟩

theorem FreshFor.sub {W L : List Owned} {l s} (h : FreshFor W l s) (hs : ∀ b ∈ L, b ∈ W) : FreshFor L l s :=
  ⟨h.pos, h.aligned, h.size, h.space, fun b hb => h.apart b (hs b hb)⟩

/-- A call as documented is one for its caller alone. -/
theorem AbsStep.proj {σ σ' op r} (h : AbsStep σ op r σ') {L R L' : List Owned} {m} (hp : σ.owned.Perm (L ++ R)) (ha : After L op r L')
    (hp' : op.resets = false → σ'.owned.Perm (L' ++ R)) (hl : Legal L op) (hm : SameOn L σ.mem m) : AbsStep ⟨L, m⟩ op r ⟨L', σ'.mem⟩ := by
  have sub : ∀ b, b ∈ L → b ∈ σ.owned := fun b hb => hp.mem_iff.mpr (List.mem_append_left _ hb)
  have keep : ∀ {W L0 : List Owned} {m'}, SameOn W σ.mem m' → (∀ b ∈ L0, b ∈ W) → (∀ b ∈ L0, b ∈ L) → SameOn L0 m m' :=
    fun hk h1 h2 b hb x hx => (hk b (h1 b hb) x hx).trans (hm b (h2 b hb) x hx).symm
  have part : ∀ {W L0 : List Owned}, W.Perm (L0 ++ R) → ∀ b ∈ L0, b ∈ W := fun hq b hb => hq.mem_iff.mpr (List.mem_append_left _ hb)
  cases h with
  | allocate hf hk => cases ha; exact .allocate (hf.sub sub) (keep hk sub fun _ h => h)
  | allocateZeroed hf hk hz => cases ha; exact .allocateZeroed (hf.sub sub) (keep hk sub fun _ h => h) hz
  | resize hb hpp hf hk hc =>
    cases ha with
    | @resizeOk b _ _ _ _ hb' hf' =>
      have hq := part ((List.perm_cons _).mp (hp' rfl))
      refine .resize hb' hf' (hf.sub hq) (keep hk hq fun _ h => List.mem_of_mem_erase h) fun i hi => ?_
      have := hf'.1; have := hf'.2.2.2
      exact (hc i hi).trans (hm b hb' _ ⟨by omega, by omega⟩).symm
  | growZeroed hb hpp hf hk hc hz =>
    cases ha with
    | @growZeroedOk b _ _ _ _ hb' hf' =>
      have hq := part ((List.perm_cons _).mp (hp' rfl))
      refine .growZeroed hb' hf' (hf.sub hq) (keep hk hq fun _ h => List.mem_of_mem_erase h) (fun i hi => ?_) hz
      have := hf'.1; have := hf'.2.2.2
      exact (hc i hi).trans (hm b hb' _ ⟨by omega, by omega⟩).symm
  | refused hop hk =>
    have : L' = L := by cases ha <;> rfl
    subst this
    exact .refused hop (keep hk sub fun _ h => h)
  | deallocate hb hpp hk =>
    cases ha with
    | deallocate hb' hf' => exact .deallocate hb' hf' (keep hk (part (hp' rfl)) fun _ h => List.mem_of_mem_erase h)
  | reset => cases ha; exact .reset
  | resetFinal => cases ha; exact .resetFinal
  | write hb hx hv hk =>
    cases ha
    cases hl with
    | write hb' hx' => exact .write hb' hx' hv fun c hc y hy hne => (hk c (sub c hc) y hy hne).trans (hm c hc y hy).symm

/-- A call as documented does not change the blocks of others. -/
theorem AbsStep.frame {σ σ' op r} (h : AbsStep σ op r σ') {L R L' : List Owned} (hp : σ.owned.Perm (L ++ R)) (ha : After L op r L')
    (hp' : op.resets = false → σ'.owned.Perm (L' ++ R)) (hl : Legal L op) (hq : op.resets = false) (hd : σ.owned.Pairwise Owned.Apart) :
    SameOn R σ.mem σ'.mem := by
  have sub : ∀ b, b ∈ R → b ∈ σ.owned := fun b hb => hp.mem_iff.mpr (List.mem_append_right _ hb)
  have part : ∀ {W L0 : List Owned}, W.Perm (L0 ++ R) → ∀ b ∈ R, b ∈ W := fun hq b hb => hq.mem_iff.mpr (List.mem_append_right _ hb)
  cases h with
  | allocate hf hk => exact fun b hb => hk b (sub b hb)
  | allocateZeroed hf hk hz => exact fun b hb => hk b (sub b hb)
  | resize hb hpp hf hk hc =>
    cases ha with
    | resizeOk => exact fun b hb => hk b (part ((List.perm_cons _).mp (hp' rfl)) b hb)
  | growZeroed hb hpp hf hk hc hz =>
    cases ha with
    | growZeroedOk => exact fun b hb => hk b (part ((List.perm_cons _).mp (hp' rfl)) b hb)
  | refused hop hk => exact fun b hb => hk b (sub b hb)
  | deallocate hb hpp hk =>
    cases ha with
    | deallocate => exact fun b hb => hk b (part (hp' rfl) b hb)
  | reset => cases hq
  | resetFinal => cases hq
  | write hb hx hv hk =>
    cases hl with
    | write hb' hx' =>
      intro c hc y hy
      refine hk c (sub c hc) y hy ?_
      rintro rfl
      have := (hp.pairwise_iff fun h => Owned.Apart.symm h).mp hd
      exact (List.pairwise_append.mp this).2.2 _ hb' c hc _ ⟨hx', hy⟩

/-! ### Threads -/

/-- The book `K` consists of the books `M` and `O`, and of blocks nobody uses any more. -/
structure Book.Union (M O K : Book) : Prop where
  owned : ∃ Z, K.owned.Perm (M.owned ++ (O.owned ++ Z))
  busy : ∀ t, K.busy t = (M.busy t).or (O.busy t)
  excl : ∀ t, M.busy t = none ∨ O.busy t = none

theorem perm_swap (A B C : List Owned) : (A ++ (B ++ C)).Perm (B ++ (A ++ C)) := by
  rw [← List.append_assoc, ← List.append_assoc]
  exact List.perm_append_comm.append_right C

theorem Book.Union.symm {M O K} (h : Book.Union M O K) : Book.Union O M K where
  owned := let ⟨Z, hZ⟩ := h.owned; ⟨Z, hZ.trans (perm_swap _ _ _)⟩
  busy := fun t => by
    rw [h.busy t]
    rcases h.excl t with h1 | h1 <;> rw [h1] <;> simp
  excl := fun t => (h.excl t).symm

theorem Book.Union.part {M O K} (h : Book.Union M O K) : M.Part K where
  owned := fun b hb => let ⟨_, hZ⟩ := h.owned; hZ.mem_iff.mpr (List.mem_append_left _ hb)
  busy := fun t q hq => by rw [h.busy t, hq]; rfl

theorem Book.Union.forget {M O K} (h : Book.Union M O K) : Book.Union { M with owned := [] } O K where
  owned := by
    obtain ⟨Z, hZ⟩ := h.owned
    refine ⟨M.owned ++ Z, hZ.trans ?_⟩
    exact perm_swap _ _ _
  busy := h.busy
  excl := h.excl

theorem SInv.idle_busy {s0 s cs K B} (h : SInv s0 s cs K B) {t : Nat} (hp : s.pcs t = .idle) : K.busy t = none := by
  have := h.thr t
  rw [hp] at this
  generalize K.busy t = bz at this
  generalize B t = bt at this
  cases this
  rfl

/-- What one may do, one may do beside others: only a call of a thread that is inside a call of somebody else is not possible, and that one does not happen
rather than fail. -/
theorem Book.Union.legal {M O K} (hU : Book.Union M O K) {s : SS} {a e} (hl : SLegal M a) (hq : a.resets = true → O.Idle)
    (he : sstep s a = .error e) : SLegal K a := by
  have calls : ∀ {t c}, sstep s (.call t c) ≠ .error e := by
    intro t c hc
    simp only [sstep] at hc
    split at hc <;> cases hc
  have allq : (∀ t, M.busy t = none) → O.Idle → ∀ t, K.busy t = none := fun h1 h2 t => by
    rw [hU.busy t, h1 t, h2.2 t]; rfl
  cases hl with
  | allocate => exact absurd he calls
  | resize => exact absurd he calls
  | deallocate => exact absurd he calls
  | go => exact .go
  | write ho hx => exact .write (hU.part.owned _ ho) hx
  | reset h => exact .reset (allq h (hq rfl))
  | resetUnchecked h => exact .resetUnchecked (allq h (hq rfl))
  | resetFinal h => exact .resetFinal (allq h (hq rfl))

/-- Bookkeeping for all follows bookkeeping for one. -/
theorem Book.Union.step {s0 s cs K B M O} (hU : Book.Union M O K) (hi : SInv s0 s cs K B) {a r s' M'} (hl : SLegal M a)
    (hq : a.resets = true → O.Idle) (hs : sstep s a = .ok (some (r, s'))) (ha : SAfter s.w.mem M a r M') :
    SLegal K a ∧ ∃ K', SAfter s.w.mem K a r K' ∧ Book.Union M' O K' := by
  have calls : ∀ {t c}, sstep s (.call t c) = .ok (some (r, s')) → K.busy t = none := by
    intro t c hc
    simp only [sstep] at hc
    split at hc
    · next h => exact hi.idle_busy h
    · cases hc
  have free : ∀ {t}, K.busy t = none → M.busy t = none ∧ O.busy t = none := by
    intro t hb
    rw [hU.busy t] at hb
    exact Option.or_eq_none_iff.mp hb
  have sub : ∀ {b}, b ∈ M.owned → b ∈ K.owned := fun hb => hU.part.owned _ hb
  obtain ⟨Z, hZ⟩ := hU.owned
  have enters : ∀ {t q L W sn sn'}, K.busy t = none → W.Perm (L ++ (O.owned ++ Z)) →
      Book.Union ⟨L, put M.busy t (some q), sn⟩ O ⟨W, put K.busy t (some q), sn'⟩ := by
    intro t q L W sn sn' hb hW
    refine ⟨⟨Z, hW⟩, fun u => ?_, fun u => ?_⟩
    · by_cases hu : u = t
      · subst hu; dsimp only; rw [put_same, put_same]; rfl
      · dsimp only; rw [put_ne _ _ hu, put_ne _ _ hu]; exact hU.busy u
    · by_cases hu : u = t
      · subst hu; exact .inr (free hb).2
      · dsimp only; rw [put_ne _ _ hu]; exact hU.excl u
  have quiet : O.Idle → Book.Union { M with owned := [] } O { K with owned := [] } := fun h =>
    ⟨⟨[], by rw [h.1]; exact .refl _⟩, hU.busy, hU.excl⟩
  have allq : (∀ t, M.busy t = none) → O.Idle → ∀ t, K.busy t = none := fun h1 h2 t => by
    rw [hU.busy t, h1 t, h2.2 t]; rfl
  cases ha with
  | allocate =>
    cases hl with
    | allocate _ hv => exact ⟨.allocate (calls hs) hv, _, .allocate, enters (calls hs) hZ⟩
  | resize ho hf =>
    cases hl with
    | resize _ ho' hf' hv => exact ⟨.resize (calls hs) (sub ho') hf' hv, _, .resize (sub ho) hf, enters (calls hs) (erase_split hZ ho)⟩
  | deallocate ho hf =>
    cases hl with
    | deallocate _ ho' hf' => exact ⟨.deallocate (calls hs) (sub ho') hf', _, .deallocate (sub ho) hf, enters (calls hs) (erase_split hZ ho)⟩
  | inside => exact ⟨.go, _, .inside, hU⟩
  | @ret t ch c ob r hb =>
    refine ⟨.go, _, .ret (hU.part.busy _ _ hb), ⟨?_, fun u => ?_, fun u => ?_⟩⟩
    · refine ⟨Z, ?_⟩
      dsimp only
      rw [List.append_assoc]
      exact hZ.append_left _
    · by_cases hu : u = t
      · subst hu
        dsimp only
        rw [put_same, put_same]
        rcases hU.excl u with h1 | h1
        · rw [hb] at h1; cases h1
        · rw [h1]; rfl
      · dsimp only; rw [put_ne _ _ hu, put_ne _ _ hu]; exact hU.busy u
    · by_cases hu : u = t
      · subst hu; exact .inl (put_same _ _ _)
      · dsimp only; rw [put_ne _ _ hu]; exact hU.excl u
  | write =>
    cases hl with
    | write ho hx => exact ⟨.write (sub ho) hx, _, .write, hU⟩
  | reset =>
    cases hl with
    | reset h => exact ⟨.reset (allq h (hq rfl)), _, .reset, quiet (hq rfl)⟩
  | resetUnchecked =>
    cases hl with
    | resetUnchecked h => exact ⟨.resetUnchecked (allq h (hq rfl)), _, .resetUnchecked, quiet (hq rfl)⟩
  | resetFinal =>
    cases hl with
    | resetFinal h => exact ⟨.resetFinal (allq h (hq rfl)), _, .resetFinal, quiet (hq rfl)⟩

theorem AbsSim.idles {s M σ T} (h : AbsSim s M σ T) (t : Nat) : T t = .idle ↔ M.busy t = none := by
  rw [h.thr t]
  cases hb : M.busy t with
  | none => simp [Pc.abs]
  | some cb => cases s.pcs t <;> simp [Pc.abs]

theorem AbsSim.has {s M σ T} (h : AbsSim s M σ T) {b : Owned} (hb : b ∈ M.owned) : b ∈ σ.owned := by
  obtain ⟨ts, _, _, hL⟩ := h.own
  exact hL.mem_iff.mpr (List.mem_append_left _ hb)

theorem AbsSim.quiet {s M σ T} (h : AbsSim s M σ T) (hq : ∀ t, M.busy t = none) : σ.owned.Perm M.owned := by
  obtain ⟨ts, _, _, hL⟩ := h.own
  have : (ts.flatMap fun t => (s.pcs t).pend (M.busy t)) = [] := by
    apply List.flatMap_eq_nil_iff.mpr
    intro t _
    rw [hq t]
    cases s.pcs t <;> rfl
  rw [this, List.append_nil] at hL
  exact hL

/-- Nobody is inside, nothing owned. -/
theorem AbsSim.idle {s M σ T} (h : AbsSim s M σ T) (hM : M.Idle) : σ.owned = [] := by
  have := h.quiet hM.2
  rw [hM.1] at this
  exact this.eq_nil

/-- A step of others: nothing happens, or (if it is of a thread of this user) the call does. -/
theorem AbsSim.other {s0 s cs K B M O σ T} (hU : Book.Union M O K) (hi : SInv s0 s cs K B) (hsim : AbsSim s M σ T) {a r s' O' K' cs' B'} (hl : SLegal O a)
    (hq : a.resets = true → M.Idle) (hs : sstep s a = .ok (some (r, s'))) (ha : SAfter s.w.mem O a r O') (hK : SAfter s.w.mem K a r K')
    (hi' : SInv s0 s' cs' K' B') :
    AbsSim s' M σ T ∨ ∃ t c r σ', T t = .called c ∧ AbsStep σ c.op r σ' ∧ AbsSim s' M σ' (put T t (.done r)) := by
  have calls : ∀ {t c}, sstep s (.call t c) = .ok (some (r, s')) → AbsSim s' M σ T := by
    intro t c hc
    simp only [sstep] at hc
    split at hc
    · next h =>
      cases hc
      have hb := hi.idle_busy h
      rw [hU.busy t] at hb
      have hb := (Option.or_eq_none_iff.mp hb).1
      have e1 : ∀ u, ((s.setPc t (.rd c)).pcs u).abs (M.busy u) = (s.pcs u).abs (M.busy u) := by
        intro u
        by_cases hu : u = t
        · subst hu; rw [hb, SS.setPc_same]; cases s.pcs u <;> rfl
        · rw [SS.setPc_ne _ _ hu]
      have e2 : ∀ u, ((s.setPc t (.rd c)).pcs u).pend (M.busy u) = (s.pcs u).pend (M.busy u) := by
        intro u
        by_cases hu : u = t
        · subst hu; rw [hb, SS.setPc_same]; cases s.pcs u <;> rfl
        · rw [SS.setPc_ne _ _ hu]
      exact ⟨fun u => by rw [e1 u]; exact hsim.thr u, hsim.own.congr e2, hsim.mem⟩
    · cases hc
  have resets : a.resets = true → AbsSim s' M σ T := by
    intro h
    have hM := hq h
    have he := hsim.idle hM
    refine ⟨fun u => ?_, ⟨[], .nil, fun u _ => ?_, ?_⟩, fun b hb => by rw [he] at hb; cases hb⟩
    · rw [hsim.thr u, hM.2 u]; cases s.pcs u <;> cases s'.pcs u <;> rfl
    · dsimp only; rw [hM.2 u]; cases s'.pcs u <;> rfl
    · rw [he, hM.1]; exact .refl _
  cases ha with
  | allocate => exact .inl (calls hs)
  | resize => exact .inl (calls hs)
  | deallocate => exact .inl (calls hs)
  | inside =>
    cases hK
    rcases hsim.inside hi hU.part hs hi' with h | ⟨c, r, σ', h⟩
    · exact .inl h
    · exact .inr ⟨_, c, r, σ', h⟩
  | ret hb =>
    refine .inl (hsim.foreign hi hU.part hs ?_)
    rcases hU.excl _ with h | h
    · exact h
    · rw [hb] at h; cases h
  | @write x v =>
    cases hs
    cases hl with
    | @write b _ _ ho hx =>
      refine .inl ⟨hsim.thr, hsim.own, fun c hc y hy => ?_⟩
      show setBytes s.w.mem x 1 (fun _ => v) y = σ.mem y
      rw [setBytes_out, hsim.mem c hc y hy]
      suffices y ≠ x by omega
      rintro rfl
      rcases hsim.from hi hU.part hc with h1 | ⟨u, _, h1⟩
      · obtain ⟨Z, hZ⟩ := hU.owned
        have := (hZ.pairwise_iff fun h => Owned.Apart.symm h).mp hi.fam.owned.apart
        exact (List.pairwise_append.mp this).2.2 c h1 b (List.mem_append_left _ ho) _ ⟨hy, hx⟩
      · exact hi.blkOwned h1 hy (hU.symm.part.owned b ho) hx
  | reset => exact .inl (resets rfl)
  | resetUnchecked => exact .inl (resets rfl)
  | resetFinal => exact .inl (resets rfl)

/-- All histories of shared use. -/
theorem SShared.abs {s0 tr s M O} (h0 : SStart s0) (h : SShared s0 tr s M O) :
    ∃ K σ T, (∃ tr', SRun s0 Book.empty tr' s K) ∧ Book.Union M O K ∧ LinRun ⟨[], s0.w.mem⟩ (mineOf tr) σ T ∧ AbsSim s M σ T := by
  induction h with
  | nil => exact ⟨_, _, _, ⟨_, .nil⟩, ⟨⟨[], .refl _⟩, fun _ => rfl, fun _ => .inl rfl⟩, .nil, .start⟩
  | mine h hl hq hs ha ih =>
    obtain ⟨K, σ, T, ⟨tr', hrun⟩, hU, hr, hsim⟩ := ih
    obtain ⟨cs, B, hi⟩ := hrun.inv h0
    obtain ⟨hlK, K', haK, hU'⟩ := hU.step hi hl hq hs ha
    have hrun' := hrun.snoc hlK hs haK
    obtain ⟨cs', B', hi'⟩ := hrun'.inv h0
    obtain ⟨σ', T', h1, h2⟩ := hsim.mine hi hU.part hl hs ha haK hi' hr
    rw [mineOf_true]
    exact ⟨K', σ', T', ⟨_, hrun'⟩, hU', h1, h2⟩
  | others h hl hq hs ha ih =>
    obtain ⟨K, σ, T, ⟨tr', hrun⟩, hU, hr, hsim⟩ := ih
    obtain ⟨cs, B, hi⟩ := hrun.inv h0
    obtain ⟨hlK, K', haK, hU'⟩ := hU.symm.step hi hl hq hs ha
    have hrun' := hrun.snoc hlK hs haK
    obtain ⟨cs', B', hi'⟩ := hrun'.inv h0
    rw [mineOf_false]
    rcases hsim.other hU hi hl hq hs ha haK hi' with h1 | ⟨t, c, r, σ', h1, h2, h3⟩
    · exact ⟨K', σ, T, ⟨_, hrun'⟩, hU'.symm, hr, h1⟩
    · exact ⟨K', σ', _, ⟨_, hrun'⟩, hU'.symm, hr.acts h1 h2, h3⟩
  | @forget tr s M O h hb ih =>
    obtain ⟨K, σ, T, hrun, hU, hr, hsim⟩ := ih
    rw [mineOf_true]
    obtain ⟨σ', T', h1, h2⟩ := hsim.reset (s' := s) hb (a := .reset) rfl hr
    exact ⟨K, σ', T', hrun, hU.forget, h1, h2⟩
  | othersForget h hb ih =>
    obtain ⟨K, σ, T, hrun, hU, hr, hsim⟩ := ih
    rw [mineOf_false]
    exact ⟨K, σ, T, hrun, hU.symm.forget.symm, hr, hsim⟩

end Blink
