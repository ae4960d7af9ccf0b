import Verif.Proofs.CacheRun
import Verif.Spec.CacheExec
import Verif.Props.Local
/-
  Property theorems about `BlinkAllocCache`: C29–C32.
  `CRun T U tr s K` (Verif/Spec/Cache.lean): `tr` is an arbitrary interleaved history of `T` threads calling `push` and `pop`
  on a new cache, started with callers owning the allocators `U`; `s` is the state after it, `K` what the callers know.
-/
namespace Blink

/-! ### A concrete history -/

/-- Threads 0 and 1 push 10 and 11; threads 0, 1 and 2 pop at the same time, so that one of them finds nothing; then 11 is
pushed again. -/
def cdemoActs : List CAct :=
  [.call 0 (.push 10), .call 1 (.push 11), .go 0, .go 1] ++ cgoes 1 1 ++ cgoes 0 2 ++ cgoes 0 2 ++ cgoes 1 3 ++
  [.call 0 .pop, .call 1 .pop, .call 2 .pop, .go 0, .go 1, .go 2, .go 1, .go 2, .go 0, .go 0, .go 0] ++
  cgoes 2 2 ++ cgoes 1 2 ++
  [.call 2 (.push 11)] ++ cgoes 2 5

def cdemoSeen : List (CAct × Option CRet) :=
  [(.call 0 (.push 10), none), (.call 1 (.push 11), none), (.go 0, some .unit), (.go 1, some .unit), (.call 0 .pop, none),
   (.call 1 .pop, none), (.call 2 .pop, none), (.go 0, some (.got none)), (.go 2, some (.got (some 11))),
   (.go 1, some (.got (some 10))), (.call 2 (.push 11), none), (.go 2, some .unit)]

theorem cdemo : ∃ tr s K, CRun 3 [10, 11] tr s K ∧ visible tr = cdemoSeen ∧ K.out = [10] ∧ s.popArr = [some 11] ∧
    (∀ t, t < 3 → K.busy t = none) := by
  obtain ⟨tr, s, K, h, hf⟩ := of_cdemoAt (T := 3) (U := [10, 11]) (as := cdemoActs) (f := fun tr s K =>
    decide (visible tr = cdemoSeen) && decide (K.out = [10]) && decide (s.popArr = [some 11]) &&
    (List.range 3).all (fun t => decide (K.busy t = none))) (by decide +kernel)
  simp only [Bool.and_eq_true, decide_eq_true_eq, List.all_eq_true, List.mem_range] at hf
  exact ⟨tr, s, K, h, hf.1.1.1, hf.1.1.2, hf.1.2, fun t ht => hf.2 t ht⟩

/-! ### C29 -/

/-- C29: no step of any thread reads a slot whose allocator was moved out, leaves the array, or reads an uninitialised
slot. -/
theorem C29_no_ub {T U tr s K} (hT : T ≤ ISIZE) (h : CRun T U tr s K) (a : CAct) (e : Fault) : cstep s a ≠ .error e := by
  intro he
  cases a with
  | call t c =>
    simp only [cstep] at he
    split at he <;> cases he
  | go t =>
    have he : cgo s t = _ := he
    rcases (h.inv hT).cgo t with h1 | ⟨r, s', h1, _⟩ <;> · rw [h1] at he; cases he

theorem pushes_append (b tr tr') : pushes b (tr ++ tr') = pushes b tr + pushes b tr' := List.countP_append
theorem pops_append (b tr tr') : pops b (tr ++ tr') = pops b tr + pops b tr' := List.countP_append

/-- Books are balanced. -/
theorem CRun.balance {T U tr s K} (h : CRun T U tr s K) (b : Nat) : K.out.count b + pushes b tr = U.count b + pops b tr := by
  induction h with
  | nil => simp [pushes, pops]
  | snoc _ hl _ ha ih =>
    rw [pushes_append, pops_append]
    cases ha with
    | pop => simpa [pushes, pops] using ih
    | push =>
      rename_i c _
      cases hl with
      | push _ _ ho =>
      by_cases hc : c = b
      · subst hc
        have := List.count_pos_iff.mpr ho
        simp only [pushes, pops, List.countP_cons, List.countP_nil, decide_true, if_true, reduceCtorEq, decide_false,
          Bool.false_eq_true, if_false, List.count_erase_self] at ih ⊢
        omega
      · rw [List.count_erase_of_ne (Ne.symm hc)]
        simp only [pushes, pops, List.countP_cons, List.countP_nil, hc, decide_false, reduceCtorEq,
          Bool.false_eq_true, if_false] at ih ⊢
        omega
    | inside => simpa [pushes, pops] using ih
    | done => simpa [pushes, pops] using ih
    | empty => simpa [pushes, pops] using ih
    | got =>
      rename_i _ c _
      by_cases hc : c = b
      · subst hc
        simp [pushes, pops] at ih ⊢; omega
      · simp [pushes, pops, hc] at ih ⊢; omega

theorem CRun.prefix {T U tr tr' s K} (h : CRun T U (tr ++ tr') s K) : ∃ s1 K1, CRun T U tr s1 K1 := by
  generalize htt : tr ++ tr' = tt at h
  induction h generalizing tr' with
  | nil =>
    have := List.append_eq_nil_iff.mp htt
    rw [this.1]; exact ⟨_, _, .nil⟩
  | snoc h hl hs ha ih =>
    rename_i tr0 s0 K0 a r s1 K1
    rcases List.eq_nil_or_concat tr' with h1 | ⟨l, x, h1⟩
    · subst h1
      rw [List.append_nil] at htt
      subst htt
      exact ⟨_, _, h.snoc hl hs ha⟩
    · subst h1
      rw [List.concat_eq_append, ← List.append_assoc] at htt
      have := (List.append_inj' htt rfl).1
      exact ih this

/-- C29: at every moment, an allocator has been handed out at most as often as it was pushed; in particular only allocators
that were pushed are handed out. -/
theorem C29_only_pushed {T U tr s K} (hT : T ≤ ISIZE) (h : CRun T U tr s K) (b : Nat) : pops b tr ≤ pushes b tr := by
  have h1 := h.balance b
  have h2 := (h.inv hT).cons b
  omega

/-- C29: if the allocators are distinct, then between two `pop`s returning the same allocator somebody pushed it. -/
theorem C29_push_between {T U s K tr1 tr2 tr3 t u b} (hT : T ≤ ISIZE) (hU : U.Nodup)
    (h : CRun T U (tr1 ++ (.go t, some (.got (some b))) :: (tr2 ++ (.go u, some (.got (some b))) :: tr3)) s K) :
    ∃ v, (.call v (.push b), none) ∈ tr2 := by
  have h' := h
  rw [show tr1 ++ (CAct.go t, some (CRet.got (some b))) :: (tr2 ++ (.go u, some (.got (some b))) :: tr3) =
    (tr1 ++ [(.go t, some (.got (some b)))] ++ tr2 ++ [(.go u, some (.got (some b)))]) ++ tr3 by simp] at h'
  obtain ⟨s2, K2, h2⟩ := h'.prefix
  obtain ⟨s1, K1, h1⟩ := h.prefix
  have c1 := C29_only_pushed hT h2 b
  have c2 := h1.balance b
  have c3 := List.nodup_iff_count.mp hU b
  simp only [pushes_append, pops_append] at c1
  have p1 : pops b [(CAct.go t, some (CRet.got (some b)))] = 1 := by simp [pops]
  have p2 : pops b [(CAct.go u, some (CRet.got (some b)))] = 1 := by simp [pops]
  have p3 : pushes b [(CAct.go t, some (CRet.got (some b)))] = 0 := by simp [pushes]
  have p4 : pushes b [(CAct.go u, some (CRet.got (some b)))] = 0 := by simp [pushes]
  have : 0 < pushes b tr2 := by omega
  obtain ⟨⟨a, r⟩, he, hp⟩ := List.countP_pos_iff.mp this
  dsimp only at hp
  split at hp
  · rename_i v c
    simp only [decide_eq_true_eq] at hp
    subst hp
    refine ⟨v, ?_⟩
    -- a call delivers no result
    obtain ⟨l1, l2, hl⟩ := List.append_of_mem he
    rw [hl] at h2
    have h3 : ∃ s' K', CRun T U ((tr1 ++ [(.go t, some (.got (some c)))] ++ l1) ++ [(.call v (.push c), r)]) s' K' := by
      rw [show (tr1 ++ [(CAct.go t, some (CRet.got (some c)))] ++ (l1 ++ (CAct.call v (.push c), r) :: l2) ++
          [(CAct.go u, some (CRet.got (some c)))]) =
        ((tr1 ++ [(CAct.go t, some (CRet.got (some c)))] ++ l1) ++ [(CAct.call v (.push c), r)]) ++
          (l2 ++ [(CAct.go u, some (CRet.got (some c)))]) by simp] at h2
      exact h2.prefix
    obtain ⟨s', K', h3⟩ := h3
    generalize hx : (tr1 ++ [(CAct.go t, some (CRet.got (some c)))] ++ l1) ++ [(CAct.call v (.push c), r)] = x at h3
    cases h3 with
    | nil => simp at hx
    | snoc _ _ _ ha =>
      have := (List.append_inj' hx rfl).2
      simp only [List.cons.injEq, Prod.mk.injEq, and_true] at this
      obtain ⟨rfl, rfl⟩ := this
      cases ha
      exact he
  · cases hp

/-- C29: no allocator is in the hands of two callers. -/
theorem C29_owned_once {T U tr s K} (hT : T ≤ ISIZE) (hU : U.Nodup) (h : CRun T U tr s K) : K.out.Nodup := by
  rw [List.nodup_iff_count]
  intro b
  have h1 := (h.inv hT).cons b
  have h2 := List.nodup_iff_count.mp hU b
  omega

/-- Non-vacuity for C29: the concrete history, extended by another `pop`, meets the hypotheses: 11 is handed out twice, with a
push in between. -/
example : ∃ tr1 tr2 tr3 t u s K, CRun 3 [10, 11] (tr1 ++ (.go t, some (.got (some 11))) ::
    (tr2 ++ (.go u, some (.got (some 11))) :: tr3)) s K ∧ tr3 ≠ [] := by
  obtain ⟨tr, s, K, h, hf⟩ := of_cdemoAt (T := 3) (U := [10, 11]) (as := cdemoActs ++ [.call 0 .pop] ++ cgoes 0 4 ++ [.call 0 .pop])
    (f := fun tr s K => decide (tr = tr.take 24 ++ (.go 2, some (.got (some 11))) ::
      ((tr.drop 25).take 12 ++ (.go 0, some (.got (some 11))) :: tr.drop 38)) && decide (tr.drop 38 ≠ []))
    (by decide +kernel)
  simp only [Bool.and_eq_true, decide_eq_true_eq] at hf
  rw [hf.1] at h
  exact ⟨_, _, _, _, _, s, K, h, hf.2⟩

/-! ### C30 -/

/-- C30: every history of calls and returns of the cache is a history of the atomic FIFO queue. -/
theorem C30_linearizable {T U tr s K} (hT : T ≤ ISIZE) (h : CRun T U tr s K) : ∃ q, QRun (visible tr) q := by
  obtain ⟨q, hq, _⟩ := h.sim hT
  exact ⟨q, hq⟩

/-- C30: when no call is in progress, the allocators pushed and not handed out since are in the cache, each as often as it
should be, and a queue that made the same calls contains exactly them. -/
theorem C30_nothing_lost {T U tr s K} (hT : T ≤ ISIZE) (h : CRun T U tr s K) (hq : ∀ t, K.busy t = none) :
    (∀ b, (s.popArr.filterMap id).count b + pops b tr = pushes b tr) ∧
    ∃ q, QRun (visible tr) q ∧ q.items = s.popArr.filterMap id := by
  have hI := h.inv hT
  have hidle : ∀ t, s.pcs t = .idle := by
    intro t
    have := hI.thr t
    rw [hq t] at this
    generalize s.pcs t = pc at this
    cases this; rfl
  constructor
  · intro b
    have h1 := h.balance b
    have h2 := hI.cons b
    rw [sumT_zero (by intro u; rw [hidle u]; rfl)] at h2
    have h3 : (s.popArr.filterMap id).count b = s.popArr.count (some b) := by
      generalize s.popArr = l
      induction l with
      | nil => rfl
      | cons a l ih =>
        cases a with
        | none => simp [ih]
        | some c => simp [List.count_cons, ih]
    omega
  · obtain ⟨q, hq, hs⟩ := h.sim hT
    refine ⟨q, hq, ?_⟩
    have h1 : s.popArr.take s.nextPop = List.replicate (s.popArr.take s.nextPop).length none := by
      rw [List.eq_replicate_iff]
      refine ⟨rfl, ?_⟩
      intro x hx
      obtain ⟨i, hi, rfl⟩ := List.mem_iff_getElem.mp hx
      rw [List.length_take] at hi
      rcases hI.dead i (by omega) (by omega) with h2 | ⟨t, ht⟩
      · rw [List.getElem_take]
        rw [List.getElem?_eq_getElem (by omega)] at h2
        exact Option.some.inj h2
      · rw [hidle t] at ht; cases ht
    have h2 := hs.items
    have h3 : s.popArr.filterMap id = (s.popArr.take s.nextPop).filterMap id ++ (s.popArr.drop s.nextPop).filterMap id := by
      rw [← List.filterMap_append, List.take_append_drop]
    rw [h3, h1, ← h2]
    simp

/-- Non-vacuity for C30: the concrete history ends with no call in progress, one allocator inside, and contains a `pop` that
found nothing. -/
example : ∃ tr s K, CRun 3 [10, 11] tr s K ∧ (∀ t, K.busy t = none) ∧ s.popArr.filterMap id = [11] ∧
    (.go 0, some (.got none)) ∈ tr := by
  obtain ⟨tr, s, K, h, hv, _, hp, hb⟩ := cdemo
  refine ⟨tr, s, K, h, ?_, by rw [hp]; rfl, ?_⟩
  · intro t
    by_cases ht : t < 3
    · exact hb t ht
    · have hI := h.inv (by decide)
      have h1 := hI.thr t
      rw [hI.idle t (by omega)] at h1
      generalize K.busy t = bz at h1
      cases h1; rfl
  · have : (CAct.go 0, some (CRet.got none)) ∈ visible tr := by rw [hv]; decide
    exact (List.mem_filter.mp this).1

/-- C30 (progress): while any call is in progress some thread can move, unless the array is full to the last addressable
slot. -/
theorem C30_somebody_moves {T U tr s K} (hT : T ≤ ISIZE) (h : CRun T U tr s K) (hfull : s.popArr.length < ISIZE_MAX) {t : Nat}
    (hb : K.busy t ≠ none) : ∃ u r s', cstep s (.go u) = .ok (some (r, s')) := by
  have hI := h.inv hT
  -- a thread holding the lock can move
  have holder : ∀ u, (s.pcs u).holdsR = true ∨ (s.pcs u).holdsW = true → ∃ u r s', cstep s (.go u) = .ok (some (r, s')) := by
    intro u hu
    refine ⟨u, ?_⟩
    have hthr := hI.thr u
    show ∃ r s', cgo s u = _
    obtain ⟨pc, hpc⟩ : ∃ pc, s.pcs u = pc := ⟨_, rfl⟩
    obtain ⟨bz, hbz⟩ : ∃ bz, K.busy u = bz := ⟨_, rfl⟩
    rw [hpc, hbz] at hthr
    rw [hpc] at hu
    unfold cgo
    rw [hpc]
    cases hthr with
    | idle => simp [CPc.holdsR, CPc.holdsW] at hu
    | popRd => simp [CPc.holdsR, CPc.holdsW] at hu
    | pushRd => simp [CPc.holdsR, CPc.holdsW] at hu
    | pushWr => simp [CPc.holdsR, CPc.holdsW] at hu
    | popAdd => exact ⟨_, _, rfl⟩
    | popTake =>
      obtain ⟨_, b, hb⟩ := hI.take u _ hpc
      exact ⟨_, _, by simp only [hb]; rfl⟩
    | popStore => exact ⟨_, _, rfl⟩
    | popCheck => exact ⟨_, _, by simp only [hI.np, if_true]; rfl⟩
    | popRet => exact ⟨_, _, rfl⟩
    | pushUnlock => exact ⟨_, _, rfl⟩
    | pushSlow =>
      dsimp only
      rw [ebind_ok hI.flush]
      dsimp only
      rw [if_pos (by rw [List.length_drop]; omega)]
      exact ⟨_, _, rfl⟩
    | pushRet => exact ⟨_, _, rfl⟩
  cases hw : s.writer with
  | some u => exact holder u (.inr ((hI.lock.wr u).mp hw))
  | none =>
    cases hr : s.readers with
    | cons u l => exact holder u (.inl ((hI.lock.rd u).mp (by rw [hr]; exact List.mem_cons_self)))
    | nil =>
      by_cases hh : (s.pcs t).holdsR = true ∨ (s.pcs t).holdsW = true
      · exact holder t hh
      · refine ⟨t, ?_⟩
        have hthr := hI.thr t
        show ∃ r s', cgo s t = _
        obtain ⟨pc, hpc⟩ : ∃ pc, s.pcs t = pc := ⟨_, rfl⟩
        obtain ⟨bz, hbz⟩ : ∃ bz, K.busy t = bz := ⟨_, rfl⟩
        rw [hpc, hbz] at hthr
        rw [hpc] at hh
        rw [hbz] at hb
        unfold cgo
        rw [hpc]
        cases hthr with
        | idle => exact absurd rfl hb
        | popRd => exact ⟨_, _, by simp only [hw, if_true]; rfl⟩
        | pushRd => exact ⟨_, _, by simp only [hw, if_true]; rfl⟩
        | pushWr => exact ⟨_, _, by simp only [hw, hr, and_self, if_true]; rfl⟩
        | popAdd | popTake | popStore | popCheck | popRet | pushUnlock => exact absurd (.inl rfl) hh
        | pushSlow | pushRet => exact absurd (.inr rfl) hh

/-! ### C31 -/

/-- C31: with at most 2^63 threads, `fetch_add` never wraps the pop counter around, however long the history. -/
theorem C31_no_wrap {T U tr s K} (hT : T ≤ ISIZE) (h : CRun T U tr s K) {t : Nat} (hp : s.pcs t = .popAdd) {r s'}
    (hs : cstep s (.go t) = .ok (some (r, s'))) : s'.nextPop = s.nextPop + 1 ∧ s'.nextPop < USIZE := by
  have hw := (h.inv hT).noWrap hT hp
  have hs : cgo s t = _ := hs
  unfold cgo at hs
  rw [hp] at hs
  simp only [pure, Except.pure, Except.ok.injEq, Option.some.injEq, Prod.mk.injEq] at hs
  rw [← hs.2]
  show fetchAdd1 s.nextPop = _ ∧ fetchAdd1 s.nextPop < _
  rw [fetchAdd1_eq hw]
  exact ⟨rfl, hw⟩

/-- C31: two threads are never about to take the same slot, and the slot a thread is about to take still holds its value. -/
theorem C31_exclusive {T U tr s K} (hT : T ≤ ISIZE) (h : CRun T U tr s K) {t u i : Nat} (ht : s.pcs t = .popTake i)
    (hu : s.pcs u = .popTake i) : t = u ∧ ∃ b, s.popArr[i]? = some (some b) :=
  ⟨(h.inv hT).inj t u i ht hu, ((h.inv hT).take t i ht).2⟩

/-- The cache after `n` calls of `pop`, the first of which took the only allocator. -/
def exhausted (n : Nat) : CS := ⟨[none], n, [], 0, [], none, fun _ => .idle⟩

theorem exhausted_next {tr : List (CAct × Option CRet)} {n : Nat} (hn : 1 ≤ n) (hlt : n < ISIZE_MAX)
    (h : CRun 1 [7] tr (exhausted n) ⟨[7], fun _ => none⟩) :
    ∃ tr', CRun 1 [7] tr' (exhausted (n + 1)) ⟨[7], fun _ => none⟩ := by
  have h1 := h.snoc (a := .call 0 .pop) (.pop (by decide) rfl) rfl .pop
  have h2 := h1.snoc (a := .go 0) .go rfl .inside
  have h3 := h2.snoc (a := .go 0) .go (s' := { exhausted (n + 1) with readers := [0], pcs := fun u => if u = 0 then .popCheck else .idle })
    (by
      have : fetchAdd1 n = n + 1 := fetchAdd1_eq (by simp only [ISIZE_MAX] at hlt; omega)
      have h0 : ¬ n < 1 := by omega
      have h00 : ¬ ISIZE_MAX ≤ n := by omega
      simp only [cstep, cgo, CS.setPc, exhausted, List.length_singleton, if_pos, this, if_neg h0, if_neg h00, pure, Except.pure,
        List.isEmpty_cons, Bool.false_eq_true, if_false]
      congr 5
      funext u
      by_cases hu : u = 0 <;> simp [hu]) .inside
  have h4 := h3.snoc (a := .go 0) .go rfl .inside
  have h5 := h4.snoc (a := .go 0) .go rfl .empty
  refine ⟨_, cast (congr (congrArg _ ?_) ?_) h5⟩
  · simp only [CS.setPc, exhausted, CS.mk.injEq]
    refine ⟨trivial, trivial, trivial, trivial, rfl, trivial, ?_⟩
    funext u
    by_cases hu : u = 0 <;> simp [hu]
  · simp only [CBook.mk.injEq]
    refine ⟨trivial, ?_⟩
    funext u
    by_cases hu : u = 0 <;> simp [put, hu]

theorem exhausted_reach (n : Nat) (hn : n + 1 ≤ ISIZE_MAX) :
    ∃ tr, CRun 1 [7] tr (exhausted (n + 1)) ⟨[7], fun _ => none⟩ := by
  induction n with
  | zero =>
    have h : ∃ tr, ∃ s K, CRun 1 [7] tr s K ∧ s = exhausted 1 ∧ K = ⟨[7], fun _ => none⟩ := by
      refine ⟨_, _, _, cexecAll_sound (as := [.call 0 (.push 7)] ++ cgoes 0 5 ++ [.call 0 .pop] ++ cgoes 0 4) .nil rfl, ?_, ?_⟩
      · simp only [CS.setPc, exhausted, CS.mk.injEq]
        refine ⟨rfl, rfl, rfl, by trivial, rfl, by trivial, ?_⟩
        funext u
        by_cases hu : u = 0 <;> simp [hu, CS.new]
      · simp only [CBook.mk.injEq]
        refine ⟨rfl, ?_⟩
        funext u
        by_cases hu : u = 0 <;> simp [put, hu]
    obtain ⟨tr, s, K, h, rfl, rfl⟩ := h
    exact ⟨tr, h⟩
  | succ n ih =>
    obtain ⟨tr, h⟩ := ih (by omega)
    exact exhausted_next (by omega) (by omega) h

/-- Non-vacuity for C31: the counter does reach `isize::MAX`, a thread is about to increment it there, and next about to store the
length of the array. -/
example : ∃ tr s K, CRun 1 [7] tr s K ∧ s.pcs 0 = .popAdd ∧ s.nextPop = ISIZE_MAX ∧
    ∃ s', cstep s (.go 0) = .ok (some (none, s')) ∧ s'.pcs 0 = .popStore := by
  obtain ⟨tr, h⟩ := exhausted_reach (ISIZE_MAX - 1) (by decide)
  rw [show ISIZE_MAX - 1 + 1 = ISIZE_MAX by decide] at h
  have h1 := h.snoc (a := .call 0 .pop) (.pop (by decide) rfl) rfl .pop
  have h2 := h1.snoc (a := .go 0) .go rfl .inside
  refine ⟨_, _, _, h2, rfl, rfl, _, rfl, ?_⟩
  show (if ISIZE_MAX < 1 then CPc.popTake ISIZE_MAX else if ISIZE_MAX ≤ ISIZE_MAX then .popStore else .popCheck) = _
  rw [if_neg (by decide), if_pos (by decide)]

/-! ### C32 -/

/-- C32 as stated: dropping a cache into which an allocator was pushed gives back everything that allocator holds. -/
def C32_full : Prop :=
  ∀ (s0 s : St) (L : List Owned), Reach s0 s L → ∀ w', cacheDrop [s.a] s.w = .ok ((), w') → w'.held.Perm s0.w.held

/-- C32 is false: the cells are `ManuallyDrop` and the cache has no `Drop`, so the chunks stay allocated. -/
theorem C32_full_false : ¬ C32_full := by
  intro h
  obtain ⟨s, hr⟩ := demo_reach
  have h1 := h _ s _ hr s.w rfl
  have h3 := ((C02_held hr).symm.trans h1).length_eq
  rw [List.length_append] at h3
  obtain ⟨_, _, _, B, hB, _⟩ := C02_layout_and_memory hr (b := ⟨131104, 900, 900, 8⟩) (by decide)
  have := List.length_pos_of_mem hB
  omega

/-- C32, what is true: dropping a cache touches nothing; so nothing is lost exactly if the allocators in it hold nothing,
like allocators never used or reset with `reset_final`. Missing: allocators that hold chunks. -/
theorem C32_drop_partial {s0 s : St} {L : List Owned} (h : Reach s0 s L) :
    cacheDrop [s.a] s.w = .ok ((), s.w) ∧ (s.w.held.Perm s0.w.held ↔ s.a.root = 0) := by
  refine ⟨rfl, ?_⟩
  have h2 := C02_held h
  obtain ⟨cs, hI⟩ := h.inv
  rw [hI.log.1] at h2
  rw [hI.root]
  cases cs with
  | nil => exact ⟨fun _ => rfl, fun _ => h2⟩
  | cons c cs =>
    constructor
    · intro hp
      have := (h2.symm.trans hp).length_eq
      simp only [List.map_cons, List.cons_append, List.length_cons, List.length_append] at this
      omega
    · intro h0
      have := (hI.arena.ok c List.mem_cons_self).pos
      simp only [rootOf] at h0
      omega

/-- Non-vacuity for C32: an allocator that holds chunks, and one that does not. -/
example : (∃ s0 s L, Reach s0 s L ∧ s.a.root ≠ 0) ∧ ∃ s0 s L, Reach s0 s L ∧ s.w.log ≠ [] ∧ s.a.root = 0 := by
  constructor
  · obtain ⟨s, hr⟩ := demo_reach
    refine ⟨_, s, _, hr, ?_⟩
    intro h0
    obtain ⟨_, _, _, B, hB, _⟩ := C02_layout_and_memory hr (b := ⟨131104, 900, 900, 8⟩) (by decide)
    have h1 := ((C02_held hr).symm.trans ((C32_drop_partial hr).2.mpr h0)).length_eq
    have := List.length_pos_of_mem hB
    rw [List.length_append] at h1
    omega
  · have h : (execAll (demoStart [600]) [] [.allocate ⟨100, 8⟩, .resetFinal]).isSome = true := by decide +kernel
    obtain ⟨⟨rs, s, L⟩, he⟩ := Option.isSome_iff_exists.mp h
    have h2 : (execAll (demoStart [600]) [] [.allocate ⟨100, 8⟩, .resetFinal]).map
      (fun x => (x.2.1.a.root, x.2.1.w.log.length)) = some (0, 2) := by decide +kernel
    rw [he] at h2
    simp only [Option.map_some, Option.some.injEq, Prod.mk.injEq] at h2
    refine ⟨_, s, L, reach_of_exec (by decide) he, ?_, h2.1⟩
    intro h3; rw [h3] at h2; simp at h2

end Blink
