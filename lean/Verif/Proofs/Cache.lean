import Verif.Spec.Cache
import Verif.Proofs.Sync
/-
  The invariant of `BlinkAllocCache` over all schedules, and its simulation by an atomic queue.
-/
namespace Blink

/-! ### Sums over the threads -/

def sumT : Nat → (Nat → Nat) → Nat
  | 0, _ => 0
  | n + 1, f => sumT n f + f n

theorem sumT_congr {T : Nat} {f g : Nat → Nat} (h : ∀ u, u < T → g u = f u) : sumT T g = sumT T f := by
  induction T with
  | zero => rfl
  | succ n ih => simp only [sumT]; rw [ih (fun u hu => h u (by omega)), h n (by omega)]

theorem sumT_put {T t : Nat} {f g : Nat → Nat} (ht : t < T) (h : ∀ u, u ≠ t → g u = f u) :
    sumT T g + f t = sumT T f + g t := by
  induction T with
  | zero => omega
  | succ n ih =>
    simp only [sumT]
    by_cases hn : n = t
    · subst hn
      rw [sumT_congr (f := f) (g := g) (fun u hu => h u (by omega))]; omega
    · have := ih (by omega)
      rw [h n hn]; omega

theorem sumT_le {T t : Nat} {f : Nat → Nat} (ht : t < T) (h : ∀ u, f u ≤ 1) (h0 : f t = 0) : sumT T f + 1 ≤ T := by
  have aux : ∀ n, sumT n f ≤ n := by
    intro n
    induction n with
    | zero => simp [sumT]
    | succ n ih => simp only [sumT]; have := h n; omega
  induction T with
  | zero => omega
  | succ n ih =>
    simp only [sumT]
    by_cases hn : n = t
    · subst hn; have := aux n; omega
    · have := ih (by omega); have := h n; omega

theorem sumT_zero {T : Nat} {f : Nat → Nat} (h : ∀ u, f u = 0) : sumT T f = 0 := by
  induction T with
  | zero => rfl
  | succ n ih => simp only [sumT]; rw [ih, h n]

theorem le_sumT {T t : Nat} {f : Nat → Nat} (ht : t < T) : f t ≤ sumT T f := by
  induction T with
  | zero => omega
  | succ n ih =>
    simp only [sumT]
    by_cases hn : n = t
    · subst hn; omega
    · have := ih (by omega); omega

theorem le_sumT2 {T t u : Nat} {f : Nat → Nat} (ht : t < T) (hu : u < T) (hne : t ≠ u) : f t + f u ≤ sumT T f := by
  induction T with
  | zero => omega
  | succ n ih =>
    simp only [sumT]
    by_cases hn : n = t
    · subst hn; have := le_sumT (f := f) (show u < n by omega); omega
    · by_cases hm : n = u
      · subst hm; have := le_sumT (f := f) (show t < n by omega); omega
      · have := ih (by omega) (by omega); omega

/-! ### What a thread is doing -/

def CPc.holdsR : CPc → Bool
  | .popAdd | .popTake _ | .popStore | .popCheck | .popUnlock => true
  | .pushAdd _ | .pushWrite _ _ | .pushStore _ | .pushUnlock _ => true
  | .ret false _ => true
  | _ => false

def CPc.holdsW : CPc → Bool
  | .popSlow | .pushSlow _ => true
  | .ret true _ => true
  | _ => false

/-- How often allocator `b` is in the hands of a thread at this point of its call. -/
def CPc.hand (b : Nat) : CPc → Nat
  | .pushRd c | .pushAdd c | .pushWrite c _ | .pushStore c | .pushUnlock c | .pushWr c | .pushSlow c => if c = b then 1 else 0
  | .ret _ (.got (some c)) => if c = b then 1 else 0
  | _ => 0

/-- About to repair the counter. -/
def CPc.late : CPc → Nat
  | .popStore => 1
  | _ => 0

theorem CPc.late_le (p : CPc) : p.late ≤ 1 := by cases p <;> simp [CPc.late]

structure CLock (readers : List Nat) (writer : Option Nat) (pcs : Nat → CPc) : Prop where
  nodup : readers.Nodup
  rd : ∀ t, t ∈ readers ↔ (pcs t).holdsR = true
  wr : ∀ t, writer = some t ↔ (pcs t).holdsW = true
  excl : writer ≠ none → readers = []

theorem CLock.same {rs wr pcs pcs'} {t : Nat} (h : CLock rs wr pcs) (ho : ∀ u, u ≠ t → pcs' u = pcs u)
    (hr : (pcs' t).holdsR = (pcs t).holdsR) (hw : (pcs' t).holdsW = (pcs t).holdsW) : CLock rs wr pcs' where
  nodup := h.nodup
  rd := by
    intro u
    by_cases hu : u = t
    · subst hu; rw [hr]; exact h.rd u
    · rw [ho u hu]; exact h.rd u
  wr := by
    intro u
    by_cases hu : u = t
    · subst hu; rw [hw]; exact h.wr u
    · rw [ho u hu]; exact h.wr u
  excl := h.excl

theorem CLock.acqR {rs wr pcs pcs'} {t : Nat} (h : CLock rs wr pcs) (ho : ∀ u, u ≠ t → pcs' u = pcs u)
    (hwn : wr = none) (h0 : (pcs t).holdsR = false) (hr : (pcs' t).holdsR = true) (hw : (pcs' t).holdsW = false) :
    CLock (t :: rs) wr pcs' where
  nodup := by
    refine List.nodup_cons.mpr ⟨fun ht => ?_, h.nodup⟩
    rw [h.rd t, h0] at ht; cases ht
  rd := by
    intro u
    by_cases hu : u = t
    · subst hu; rw [hr]; simp
    · rw [ho u hu, ← h.rd u, List.mem_cons]
      exact ⟨fun h => h.resolve_left hu, .inr⟩
  wr := by
    intro u
    by_cases hu : u = t
    · subst hu; rw [hw, hwn]; simp
    · rw [ho u hu]; exact h.wr u
  excl := fun h' => absurd hwn h'

theorem CLock.relR {rs wr pcs pcs'} {t : Nat} (h : CLock rs wr pcs) (ho : ∀ u, u ≠ t → pcs' u = pcs u)
    (h0 : (pcs t).holdsR = true) (hr : (pcs' t).holdsR = false) (hw : (pcs' t).holdsW = false) :
    CLock (rs.erase t) wr pcs' := by
  have hwn : wr = none := by
    cases hwr : wr with
    | none => rfl
    | some u =>
      have := h.excl (by rw [hwr]; simp)
      have ht := (h.rd t).mpr h0
      rw [this] at ht; cases ht
  refine ⟨h.nodup.erase _, ?_, ?_, fun h' => absurd hwn h'⟩
  · intro u
    by_cases hu : u = t
    · subst hu; rw [hr]
      simp only [Bool.false_eq_true, iff_false]
      exact fun hm => absurd hm (List.Nodup.not_mem_erase h.nodup)
    · rw [ho u hu, ← h.rd u]
      exact List.mem_erase_of_ne hu
  · intro u
    by_cases hu : u = t
    · subst hu; rw [hw, hwn]; simp
    · rw [ho u hu]; exact h.wr u

theorem CLock.acqW {rs wr pcs pcs'} {t : Nat} (h : CLock rs wr pcs) (ho : ∀ u, u ≠ t → pcs' u = pcs u)
    (hwn : wr = none) (hrn : rs = []) (hr : (pcs' t).holdsR = false) (hw : (pcs' t).holdsW = true) :
    CLock rs (some t) pcs' where
  nodup := h.nodup
  rd := by
    intro u
    by_cases hu : u = t
    · subst hu; rw [hr, hrn]; simp
    · rw [ho u hu]; exact h.rd u
  wr := by
    intro u
    by_cases hu : u = t
    · subst hu; rw [hw]; simp
    · rw [ho u hu, ← h.wr u, hwn]
      simp only [Option.some.injEq, reduceCtorEq, iff_false]
      exact fun he => hu he.symm
  excl := fun _ => hrn

theorem CLock.relW {rs wr pcs pcs'} {t : Nat} (h : CLock rs wr pcs) (ho : ∀ u, u ≠ t → pcs' u = pcs u)
    (h0 : (pcs t).holdsW = true) (hr : (pcs' t).holdsR = false) (hw : (pcs' t).holdsW = false) :
    CLock rs none pcs' := by
  have hwt := (h.wr t).mpr h0
  have hrn : rs = [] := h.excl (by rw [hwt]; simp)
  refine ⟨h.nodup, ?_, ?_, fun h' => absurd rfl h'⟩
  · intro u
    by_cases hu : u = t
    · subst hu; rw [hr, hrn]; simp
    · rw [ho u hu]; exact h.rd u
  · intro u
    by_cases hu : u = t
    · subst hu; rw [hw]; simp
    · rw [ho u hu, ← h.wr u, hwt]
      simp only [reduceCtorEq, Option.some.injEq, false_iff]
      exact fun he => hu he.symm

/-- While a thread holds the write lock, no other holds the read lock. -/
theorem CLock.alone {rs wr pcs} {t : Nat} (h : CLock rs wr pcs) (h0 : (pcs t).holdsW = true) (u : Nat) :
    (pcs u).holdsR = false := by
  have hwt := (h.wr t).mpr h0
  have hrn : rs = [] := h.excl (by rw [hwt]; simp)
  cases hu : (pcs u).holdsR with
  | false => rfl
  | true => have := (h.rd u).mpr hu; rw [hrn] at this; cases this


/-- A thread executing the recorded call is at `pc`. -/
inductive COK : Option CCall → CPc → Prop
  | idle : COK none .idle
  | popRd : COK (some .pop) .popRd
  | popAdd : COK (some .pop) .popAdd
  | popTake {i} : COK (some .pop) (.popTake i)
  | popStore : COK (some .pop) .popStore
  | popCheck : COK (some .pop) .popCheck
  | popRet {o} : COK (some .pop) (.ret false (.got o))
  | pushRd {b} : COK (some (.push b)) (.pushRd b)
  | pushUnlock {b} : COK (some (.push b)) (.pushUnlock b)
  | pushWr {b} : COK (some (.push b)) (.pushWr b)
  | pushSlow {b} : COK (some (.push b)) (.pushSlow b)
  | pushRet {b} : COK (some (.push b)) (.ret true .unit)

/-- The invariant. -/
structure CInv (T : Nat) (U : List Nat) (s : CS) (K : CBook) : Prop where
  pa : s.pushArr = []
  np : s.nextPush = 0
  lock : CLock s.readers s.writer s.pcs
  idle : ∀ t, T ≤ t → s.pcs t = .idle
  len : s.popArr.length ≤ ISIZE_MAX
  next : s.nextPop ≤ ISIZE_MAX + sumT T (fun t => (s.pcs t).late)
  live : ∀ i, s.nextPop ≤ i → i < s.popArr.length → ∃ b, s.popArr[i]? = some (some b)
  dead : ∀ i, i < s.nextPop → i < s.popArr.length → s.popArr[i]? = some none ∨ ∃ t, s.pcs t = .popTake i
  take : ∀ t i, s.pcs t = .popTake i → i < s.nextPop ∧ ∃ b, s.popArr[i]? = some (some b)
  inj : ∀ t u i, s.pcs t = .popTake i → s.pcs u = .popTake i → t = u
  full : ∀ t, s.pcs t = .popStore → s.popArr.length ≤ s.nextPop
  thr : ∀ t, COK (K.busy t) (s.pcs t)
  cons : ∀ b, K.out.count b + s.popArr.count (some b) + sumT T (fun t => (s.pcs t).hand b) = U.count b

theorem CInv.init (T : Nat) (U : List Nat) : CInv T U CS.new ⟨U, fun _ => none⟩ where
  pa := rfl
  np := rfl
  lock := ⟨.nil, by intro t; simp [CS.new, CPc.holdsR], by intro t; simp [CS.new, CPc.holdsW], by intro _; rfl⟩
  idle := fun _ _ => rfl
  len := by simp [CS.new]
  next := by simp [CS.new]
  live := by intro i _ h; simp [CS.new] at h
  dead := by intro i _ h; simp [CS.new] at h
  take := by intro t i h; simp [CS.new] at h
  inj := by intro t u i h; simp [CS.new] at h
  full := by intro t h; simp [CS.new] at h
  thr := fun _ => .idle
  cons := by intro b; simp [CS.new, CPc.hand, sumT_zero]

theorem CS.setPc_pcs (s : CS) (t : Nat) (pc : CPc) : (s.setPc t pc).pcs = put s.pcs t pc := rfl

theorem CInv.lt {T U s K} (h : CInv T U s K) {t : Nat} (ht : s.pcs t ≠ .idle) : t < T := by
  rcases Nat.lt_or_ge t T with h1 | h1
  · exact h1
  · exact absurd (h.idle t h1) ht

/-- Frame lemma: only thread `t` moves; the array stays as it is. -/
theorem CInv.move {T U s K} (h : CInv T U s K) {t : Nat} {s' : CS} {K' : CBook} {pc : CPc} (ht : t < T)
    (hp : s'.pcs = put s.pcs t pc) (ha : s'.popArr = s.popArr) (hpa : s'.pushArr = s.pushArr)
    (hnp : s'.nextPush = s.nextPush) (hlock : CLock s'.readers s'.writer s'.pcs)
    (h0 : ∀ i, s.pcs t ≠ .popTake i) (h1 : ∀ i, pc ≠ .popTake i)
    (hn : s'.nextPop = s.nextPop) (hl : pc.late = (s.pcs t).late)
    (hb : ∀ u, u ≠ t → K'.busy u = K.busy u) (hok : COK (K'.busy t) pc)
    (hc : ∀ b, K'.out.count b + pc.hand b = K.out.count b + (s.pcs t).hand b) : CInv T U s' K' where
  pa := by rw [hpa, h.pa]
  np := by rw [hnp, h.np]
  lock := hlock
  idle := by intro u hu; rw [hp, put_ne _ _ (by omega)]; exact h.idle u hu
  len := by rw [ha]; exact h.len
  next := by
    rw [hn, hp]
    have := sumT_put (T := T) (t := t) (f := fun t => (s.pcs t).late) (g := fun u => (put s.pcs t pc u).late) ht
      (fun u hu => by simp only [put_ne _ _ hu])
    simp only [put_same] at this
    have := h.next
    omega
  live := by rw [ha, hn]; exact h.live
  dead := by
    rw [ha, hn, hp]
    intro i hi hi2
    rcases h.dead i hi hi2 with h2 | ⟨u, hu⟩
    · exact .inl h2
    · refine .inr ⟨u, ?_⟩
      have : u ≠ t := fun he => h0 i (he ▸ hu)
      rw [put_ne _ _ this]; exact hu
  take := by
    rw [ha, hn, hp]
    intro u i hu
    by_cases he : u = t
    · subst he; rw [put_same] at hu; exact absurd hu (h1 i)
    · rw [put_ne _ _ he] at hu; exact h.take u i hu
  inj := by
    rw [hp]
    intro u v i hu hv
    have hut : u ≠ t := fun he => by subst he; rw [put_same] at hu; exact h1 i hu
    have hvt : v ≠ t := fun he => by subst he; rw [put_same] at hv; exact h1 i hv
    rw [put_ne _ _ hut] at hu; rw [put_ne _ _ hvt] at hv
    exact h.inj u v i hu hv
  full := by
    rw [ha, hn, hp]
    intro u hu
    by_cases he : u = t
    · subst he; rw [put_same] at hu
      have : (s.pcs u).late = 1 := by rw [← hl, hu]; rfl
      refine h.full u ?_
      revert this
      cases s.pcs u <;> simp [CPc.late]
    · rw [put_ne _ _ he] at hu; exact h.full u hu
  thr := by
    intro u
    rw [hp]
    by_cases he : u = t
    · subst he; rw [put_same]; exact hok
    · rw [put_ne _ _ he, hb u he]; exact h.thr u
  cons := by
    intro b
    rw [ha, hp]
    have := sumT_put (T := T) (t := t) (f := fun t => (s.pcs t).hand b) (g := fun u => (put s.pcs t pc u).hand b) ht
      (fun u hu => by simp only [put_ne _ _ hu])
    simp only [put_same] at this
    have := h.cons b
    have := hc b
    omega


theorem CInv.call {T U s K} (h : CInv T U s K) {t : Nat} {c : CCall} {r s' K'} (hl : CLegal T K (.call t c))
    (hg : cstep s (.call t c) = .ok (some (r, s'))) (ha : CAfter K (.call t c) r K') : CInv T U s' K' := by
  have hi : s.pcs t = .idle := by
    by_cases hi : s.pcs t = .idle
    · exact hi
    · simp [cstep, hi, pure, Except.pure] at hg
  simp only [cstep, hi, if_true, pure, Except.pure, Except.ok.injEq, Option.some.injEq, Prod.mk.injEq] at hg
  obtain ⟨_, hs⟩ := hg
  subst hs
  cases hl with
  | pop ht hb =>
    cases ha with
    | pop =>
      refine h.move ht (pc := .popRd) rfl rfl rfl rfl ?_ (by rw [hi]; simp) (by simp) rfl (by rw [hi]; rfl)
        (fun u hu => put_ne _ _ hu) (by rw [show ({ K with busy := put K.busy t (some .pop) } : CBook).busy t = _ from put_same ..]; exact .popRd)
        (by intro b; rw [hi]; rfl)
      exact h.lock.same (t := t) (fun u hu => put_ne _ _ hu) (by rw [hi]; rw [CS.setPc_pcs, put_same]; rfl)
        (by rw [hi]; rw [CS.setPc_pcs, put_same]; rfl)
  | push ht hb ho =>
    rename_i b
    cases ha with
    | push =>
      refine h.move ht (pc := .pushRd b) rfl rfl rfl rfl ?_ (by rw [hi]; simp) (by simp) rfl (by rw [hi]; rfl)
        (fun u hu => put_ne _ _ hu)
        (by rw [show ({ out := K.out.erase b, busy := put K.busy t (some (.push b)) } : CBook).busy t = _ from put_same ..]; exact .pushRd)
        ?_
      · exact h.lock.same (t := t) (fun u hu => put_ne _ _ hu) (by rw [hi]; rw [CS.setPc_pcs, put_same]; rfl)
          (by rw [hi]; rw [CS.setPc_pcs, put_same]; rfl)
      · intro c
        rw [hi]
        simp only [CPc.hand]
        by_cases hbc : b = c
        · subst hbc
          have := List.count_pos_iff.mpr ho
          rw [List.count_erase_self, if_pos rfl]; omega
        · rw [List.count_erase_of_ne (Ne.symm hbc), if_neg hbc]

theorem CInv.flush {T U s K} (h : CInv T U s K) :
    s.flush = .ok { s with nextPop := 0, popArr := s.popArr.drop (min s.nextPop s.popArr.length) } := by
  unfold CS.flush
  simp only [h.pa, h.np, List.length_nil, List.take_nil, initAll, List.all_nil, if_true, List.drop_nil]
  have h1 := h.pa
  have h2 := h.np
  cases s
  dsimp only at h1 h2
  subst h1; subst h2
  rfl

theorem lateSum {T : Nat} {s : CS} {t : Nat} {pc : CPc} (ht : t < T) :
    sumT T (fun u => (put s.pcs t pc u).late) + (s.pcs t).late = sumT T (fun u => (s.pcs u).late) + pc.late := by
  have := sumT_put (T := T) (t := t) (f := fun t => (s.pcs t).late) (g := fun u => (put s.pcs t pc u).late) ht
    (fun u hu => by simp only [put_ne _ _ hu])
  simpa only [put_same] using this

theorem handSum {T : Nat} {s : CS} {t : Nat} {pc : CPc} (b : Nat) (ht : t < T) :
    sumT T (fun u => (put s.pcs t pc u).hand b) + (s.pcs t).hand b = sumT T (fun u => (s.pcs u).hand b) + pc.hand b := by
  have := sumT_put (T := T) (t := t) (f := fun t => (s.pcs t).hand b) (g := fun u => (put s.pcs t pc u).hand b) ht
    (fun u hu => by simp only [put_ne _ _ hu])
  simpa only [put_same] using this

/-- The counter does not wrap around when a thread is about to increment it. -/
theorem CInv.noWrap {T U s K} (hT : T ≤ ISIZE) (h : CInv T U s K) {t : Nat} (hp : s.pcs t = .popAdd) :
    s.nextPop + 1 < USIZE := by
  have ht : t < T := h.lt (by rw [hp]; simp)
  have := sumT_le (f := fun u => (s.pcs u).late) ht (fun u => CPc.late_le _) (by simp only [hp]; rfl)
  have := h.next
  simp only [ISIZE_MAX] at this
  omega

theorem fetchAdd1_eq {n : Nat} (h : n + 1 < USIZE) : fetchAdd1 n = n + 1 := Nat.mod_eq_of_lt h

/-- `fetch_add` of `pop`. -/
theorem CInv.add {T U s K} (hT : T ≤ ISIZE) (h : CInv T U s K) {t : Nat} (hp : s.pcs t = .popAdd) {pc : CPc}
    (hb : K.busy t = some .pop)
    (hpc : pc = if s.nextPop < s.popArr.length then .popTake s.nextPop else if ISIZE_MAX ≤ s.nextPop then .popStore else .popCheck) :
    CInv T U ({ s with nextPop := fetchAdd1 s.nextPop }.setPc t pc) K := by
  have ht : t < T := h.lt (by rw [hp]; simp)
  have hw := h.noWrap hT hp
  rw [fetchAdd1_eq hw]
  have hother : ∀ u, u ≠ t → ({ s with nextPop := s.nextPop + 1 }.setPc t pc).pcs u = s.pcs u := fun u hu => put_ne _ _ hu
  have hself : ({ s with nextPop := s.nextPop + 1 }.setPc t pc).pcs t = pc := put_same ..
  have hh : pc.holdsR = true ∧ pc.holdsW = false ∧ (∀ b, pc.hand b = 0) ∧ COK (some .pop) pc := by
    rw [hpc]
    split
    · exact ⟨rfl, rfl, fun _ => rfl, .popTake⟩
    · split
      · exact ⟨rfl, rfl, fun _ => rfl, .popStore⟩
      · exact ⟨rfl, rfl, fun _ => rfl, .popCheck⟩
  have hpt : ∀ i, pc = .popTake i → i = s.nextPop ∧ s.nextPop < s.popArr.length := by
    intro i hi
    rw [hpc] at hi
    split at hi
    · rename_i h1; cases hi; exact ⟨rfl, h1⟩
    · split at hi <;> cases hi
  refine ⟨h.pa, h.np, ?_, ?_, h.len, ?_, ?_, ?_, ?_, ?_, ?_, ?_, ?_⟩
  · exact h.lock.same (t := t) hother (by rw [hself, hp, hh.1]; rfl) (by rw [hself, hp, hh.2.1]; rfl)
  · intro u hu; rw [hother u (by omega)]; exact h.idle u hu
  · have h1 := lateSum (s := s) (pc := pc) ht
    have h2 := h.next
    have h0 : (s.pcs t).late = 0 := by rw [hp]; rfl
    show s.nextPop + 1 ≤ ISIZE_MAX + sumT T (fun u => (put s.pcs t pc u).late)
    by_cases hlt : s.nextPop < ISIZE_MAX
    · omega
    · have : pc.late = 1 := by
        rw [hpc, if_neg (by have := h.len; omega), if_pos (by omega)]; rfl
      omega
  · intro i hi hi2
    exact h.live i (show s.nextPop ≤ i by have : s.nextPop + 1 ≤ i := hi; omega) hi2
  · intro i hi hi2
    have hi : i < s.nextPop + 1 := hi
    have hi2 : i < s.popArr.length := hi2
    by_cases he : i = s.nextPop
    · right
      refine ⟨t, ?_⟩
      rw [hself, hpc, if_pos (by omega), he]
    · rcases h.dead i (by omega) hi2 with h2 | ⟨u, hu⟩
      · exact .inl h2
      · refine .inr ⟨u, ?_⟩
        have : u ≠ t := fun he => by subst he; rw [hp] at hu; cases hu
        rw [hother u this]; exact hu
  · intro u i hu
    show i < s.nextPop + 1 ∧ ∃ b, s.popArr[i]? = some (some b)
    by_cases he : u = t
    · subst he; rw [hself] at hu
      have := hpt i hu
      exact ⟨by omega, h.live i (by omega) (by omega)⟩
    · rw [hother u he] at hu
      have := h.take u i hu
      exact ⟨by omega, this.2⟩
  · intro u v i hu hv
    by_cases heu : u = t
    · by_cases hev : v = t
      · rw [heu, hev]
      · subst heu; rw [hself] at hu; rw [hother v hev] at hv
        have := hpt i hu
        have := (h.take v i hv).1
        omega
    · by_cases hev : v = t
      · subst hev; rw [hself] at hv; rw [hother u heu] at hu
        have := hpt i hv
        have := (h.take u i hu).1
        omega
      · rw [hother u heu] at hu; rw [hother v hev] at hv
        exact h.inj u v i hu hv
  · intro u hu
    show s.popArr.length ≤ s.nextPop + 1
    by_cases he : u = t
    · subst he; rw [hself, hpc] at hu
      split at hu
      · cases hu
      · omega
    · rw [hother u he] at hu
      have := h.full u hu
      omega
  · intro u
    by_cases he : u = t
    · subst he; rw [hself, hb]; exact hh.2.2.2
    · rw [hother u he]; exact h.thr u
  · intro b
    have h1 := handSum (s := s) (pc := pc) b ht
    have h2 := h.cons b
    have h0 : (s.pcs t).hand b = 0 := by rw [hp]; rfl
    rw [hh.2.2.1 b, h0] at h1
    show K.out.count b + s.popArr.count (some b) + sumT T (fun u => (put s.pcs t pc u).hand b) = U.count b
    omega

theorem count_set_none {l : List (Option Nat)} {i b c : Nat} (h : l[i]? = some (some b)) :
    (l.set i none).count (some c) + (if b = c then 1 else 0) = l.count (some c) := by
  induction l generalizing i with
  | nil => simp at h
  | cons a l ih =>
    cases i with
    | zero =>
      simp only [List.getElem?_cons_zero, Option.some.injEq] at h
      subst h
      by_cases hbc : b = c <;> simp [List.set, hbc]
    | succ i =>
      simp only [List.getElem?_cons_succ] at h
      have := ih h
      simp only [List.set, List.count_cons]
      omega

/-- A thread takes its value. -/
theorem CInv.takeOut {T U s K} (h : CInv T U s K) {t i b : Nat} (hp : s.pcs t = .popTake i) (hb : K.busy t = some .pop)
    (hi : s.popArr[i]? = some (some b)) :
    CInv T U ({ s with popArr := s.popArr.set i none }.setPc t (.ret false (.got (some b)))) K := by
  have ht : t < T := h.lt (by rw [hp]; simp)
  have hother : ∀ u, u ≠ t →
      ({ s with popArr := s.popArr.set i none }.setPc t (.ret false (.got (some b)))).pcs u = s.pcs u := fun u hu => put_ne _ _ hu
  have hself : ({ s with popArr := s.popArr.set i none }.setPc t (.ret false (.got (some b)))).pcs t
    = .ret false (.got (some b)) := put_same ..
  have hlen : (s.popArr.set i none).length = s.popArr.length := List.length_set
  have hil : i < s.popArr.length := by
    rcases Nat.lt_or_ge i s.popArr.length with h1 | h1
    · exact h1
    · rw [List.getElem?_eq_none h1] at hi; cases hi
  have hin := (h.take t i hp).1
  have hne : ∀ j, j ≠ i → (s.popArr.set i none)[j]? = s.popArr[j]? := by
    intro j hj
    rw [List.getElem?_set_ne (Ne.symm hj)]
  refine ⟨h.pa, h.np, ?_, ?_, ?_, ?_, ?_, ?_, ?_, ?_, ?_, ?_, ?_⟩
  · exact h.lock.same (t := t) hother (by rw [hself, hp]; rfl) (by rw [hself, hp]; rfl)
  · intro u hu; rw [hother u (by omega)]; exact h.idle u hu
  · show (s.popArr.set i none).length ≤ _
    rw [hlen]; exact h.len
  · have h1 := lateSum (s := s) (pc := .ret false (.got (some b))) ht
    have h2 := h.next
    have h0 : (s.pcs t).late = 0 := by rw [hp]; rfl
    have h3 : (CPc.ret false (.got (some b))).late = 0 := rfl
    show s.nextPop ≤ ISIZE_MAX + sumT T (fun u => (put s.pcs t _ u).late)
    omega
  · intro j hj hj2
    show ∃ b, (s.popArr.set i none)[j]? = _
    have hj : s.nextPop ≤ j := hj
    rw [hne j (by omega)]
    exact h.live j hj (by rw [← hlen]; exact hj2)
  · intro j hj hj2
    show (s.popArr.set i none)[j]? = _ ∨ _
    by_cases he : j = i
    · subst he; left; rw [List.getElem?_set_self hil]
    · rw [hne j he]
      rcases h.dead j hj (by rw [← hlen]; exact hj2) with h2 | ⟨u, hu⟩
      · exact .inl h2
      · refine .inr ⟨u, ?_⟩
        have : u ≠ t := fun h' => by subst h'; rw [hp] at hu; cases hu; exact he rfl
        rw [hother u this]; exact hu
  · intro u j hu
    show j < s.nextPop ∧ ∃ b, (s.popArr.set i none)[j]? = _
    by_cases he : u = t
    · subst he; rw [hself] at hu; cases hu
    · rw [hother u he] at hu
      have hji : j ≠ i := fun h' => he (h.inj u t i (h' ▸ hu) hp)
      rw [hne j hji]
      exact h.take u j hu
  · intro u v j hu hv
    have hut : u ≠ t := fun he => by subst he; rw [hself] at hu; cases hu
    have hvt : v ≠ t := fun he => by subst he; rw [hself] at hv; cases hv
    rw [hother u hut] at hu; rw [hother v hvt] at hv
    exact h.inj u v j hu hv
  · intro u hu
    show (s.popArr.set i none).length ≤ s.nextPop
    rw [hlen]
    have hut : u ≠ t := fun he => by subst he; rw [hself] at hu; cases hu
    rw [hother u hut] at hu
    exact h.full u hu
  · intro u
    by_cases he : u = t
    · subst he; rw [hself, hb]; exact .popRet
    · rw [hother u he]; exact h.thr u
  · intro c
    have h1 := handSum (s := s) (pc := .ret false (.got (some b))) c ht
    have h2 := h.cons c
    have h0 : (s.pcs t).hand c = 0 := by rw [hp]; rfl
    have h4 : (CPc.ret false (.got (some b))).hand c = if b = c then 1 else 0 := rfl
    have h3 := count_set_none (c := c) hi
    show K.out.count c + (s.popArr.set i none).count (some c) + sumT T (fun u => (put s.pcs t _ u).hand c) = U.count c
    omega

/-- `prevent_overflow` stores the length. -/
theorem CInv.store {T U s K} (h : CInv T U s K) {t : Nat} (hp : s.pcs t = .popStore) (hb : K.busy t = some .pop) :
    CInv T U ({ s with nextPop := s.popArr.length }.setPc t .popCheck) K := by
  have ht : t < T := h.lt (by rw [hp]; simp)
  have hother : ∀ u, u ≠ t → ({ s with nextPop := s.popArr.length }.setPc t .popCheck).pcs u = s.pcs u :=
    fun u hu => put_ne _ _ hu
  have hself : ({ s with nextPop := s.popArr.length }.setPc t .popCheck).pcs t = .popCheck := put_same ..
  have hf := h.full t hp
  have hil : ∀ u i, s.pcs u = .popTake i → i < s.popArr.length := by
    intro u i hu
    obtain ⟨_, b, hi⟩ := h.take u i hu
    rcases Nat.lt_or_ge i s.popArr.length with h1 | h1
    · exact h1
    · rw [List.getElem?_eq_none h1] at hi; cases hi
  refine ⟨h.pa, h.np, ?_, ?_, h.len, ?_, ?_, ?_, ?_, ?_, ?_, ?_, ?_⟩
  · exact h.lock.same (t := t) hother (by rw [hself, hp]; rfl) (by rw [hself, hp]; rfl)
  · intro u hu; rw [hother u (by omega)]; exact h.idle u hu
  · exact Nat.le_trans h.len (Nat.le_add_right _ _)
  · intro i hi hi2
    have hi : s.popArr.length ≤ i := hi
    have hi2 : i < s.popArr.length := hi2
    omega
  · intro i hi hi2
    have hi2 : i < s.popArr.length := hi2
    rcases h.dead i (by omega) hi2 with h2 | ⟨u, hu⟩
    · exact .inl h2
    · refine .inr ⟨u, ?_⟩
      have : u ≠ t := fun he => by subst he; rw [hp] at hu; cases hu
      rw [hother u this]; exact hu
  · intro u i hu
    by_cases he : u = t
    · subst he; rw [hself] at hu; cases hu
    · rw [hother u he] at hu
      exact ⟨hil u i hu, (h.take u i hu).2⟩
  · intro u v i hu hv
    have hut : u ≠ t := fun he => by subst he; rw [hself] at hu; cases hu
    have hvt : v ≠ t := fun he => by subst he; rw [hself] at hv; cases hv
    rw [hother u hut] at hu; rw [hother v hvt] at hv
    exact h.inj u v i hu hv
  · intro u hu; exact Nat.le_refl _
  · intro u
    by_cases he : u = t
    · subst he; rw [hself, hb]; exact .popCheck
    · rw [hother u he]; exact h.thr u
  · intro b
    have h1 := handSum (s := s) (pc := .popCheck) b ht
    have h2 := h.cons b
    have h0 : (s.pcs t).hand b = 0 := by rw [hp]; rfl
    have h3 : CPc.popCheck.hand b = 0 := rfl
    show K.out.count b + s.popArr.count (some b) + sumT T (fun u => (put s.pcs t _ u).hand b) = U.count b
    omega

theorem drop_min {α} (l : List α) (n : Nat) : l.drop (min n l.length) = l.drop n := by
  rcases Nat.le_total n l.length with h | h
  · rw [Nat.min_eq_left h]
  · rw [Nat.min_eq_right h, List.drop_eq_nil_of_le h, List.drop_length]

theorem count_drop_dead {l : List (Option Nat)} {n : Nat} (h : ∀ i, i < n → i < l.length → l[i]? = some none) (b : Nat) :
    (l.drop n).count (some b) = l.count (some b) := by
  induction n generalizing l with
  | zero => rfl
  | succ n ih =>
    cases l with
    | nil => rfl
    | cons a l =>
      have ha := h 0 (by omega) (by simp)
      simp only [List.getElem?_cons_zero, Option.some.injEq] at ha
      subst ha
      rw [List.drop_succ_cons, ih]
      · simp
      · intro i hi hi2
        have := h (i + 1) (by omega) (by simp; omega)
        simpa using this

/-- Under the write lock nobody is about to take a value. -/
theorem CInv.quiet {T U s K} (h : CInv T U s K) {t : Nat} (hp : (s.pcs t).holdsW = true) (u i : Nat) :
    s.pcs u ≠ .popTake i ∧ s.pcs u ≠ .popStore := by
  have := h.lock.alone hp u
  constructor <;> · intro he; rw [he] at this; cases this

/-- `flush` and `Vec::push`. -/
theorem CInv.slow {T U s K} (h : CInv T U s K) {t b : Nat} (hp : s.pcs t = .pushSlow b) (hb : K.busy t = some (.push b))
    (hc : (s.popArr.drop (min s.nextPop s.popArr.length)).length < ISIZE_MAX) :
    CInv T U ({ s with
      nextPop := 0
      popArr := s.popArr.drop (min s.nextPop s.popArr.length) ++ [some b] }.setPc t (.ret true .unit)) K := by
  have ht : t < T := h.lt (by rw [hp]; simp)
  rw [drop_min] at hc ⊢
  generalize hs' : ({ s with
      nextPop := 0
      popArr := s.popArr.drop s.nextPop ++ [some b] }.setPc t (.ret true .unit)) = s'
  have hother : ∀ u, u ≠ t → s'.pcs u = s.pcs u := by subst hs'; exact fun u hu => put_ne _ _ hu
  have hself : s'.pcs t = .ret true .unit := by subst hs'; exact put_same ..
  have hq := fun u i => h.quiet (t := t) (by rw [hp]; rfl) u i
  have harr : s'.popArr = s.popArr.drop s.nextPop ++ [some b] := by subst hs'; rfl
  have hn : s'.nextPop = 0 := by subst hs'; rfl
  have hnt : ∀ u i, s'.pcs u ≠ .popTake i ∧ s'.pcs u ≠ .popStore := by
    intro u i
    by_cases he : u = t
    · subst he; rw [hself]; simp
    · rw [hother u he]; exact hq u i
  refine ⟨by subst hs'; exact h.pa, by subst hs'; exact h.np, ?_, ?_, ?_, ?_, ?_, ?_, ?_, ?_, ?_, ?_, ?_⟩
  · have h1 : s'.readers = s.readers := by subst hs'; rfl
    have h2 : s'.writer = s.writer := by subst hs'; rfl
    rw [h1, h2]
    exact h.lock.same (t := t) hother (by rw [hself, hp]; rfl) (by rw [hself, hp]; rfl)
  · intro u hu; rw [hother u (by omega)]; exact h.idle u hu
  · rw [harr, List.length_append]; simp only [List.length_singleton]; omega
  · rw [hn]; exact Nat.zero_le _
  · intro i _ hi
    rw [harr] at hi ⊢
    rw [List.length_append] at hi
    simp only [List.length_singleton] at hi
    by_cases hl : i < (s.popArr.drop s.nextPop).length
    · rw [List.getElem?_append_left hl, List.getElem?_drop]
      rw [List.length_drop] at hl
      exact h.live _ (by omega) (by omega)
    · have : i = (s.popArr.drop s.nextPop).length := by omega
      rw [this]; exact ⟨b, by simp⟩
  · intro i hi; rw [hn] at hi; omega
  · intro u i hu; exact absurd hu (hnt u i).1
  · intro u v i hu; exact absurd hu (hnt u i).1
  · intro u hu; exact absurd hu (hnt u 0).2
  · intro u
    by_cases he : u = t
    · subst he; rw [hself, hb]; exact .pushRet
    · rw [hother u he]; exact h.thr u
  · intro c
    have h1 := handSum (s := s) (pc := .ret true .unit) c ht
    have h2 := h.cons c
    have h0 : (s.pcs t).hand c = if b = c then 1 else 0 := by rw [hp]; rfl
    have h4 : (CPc.ret true .unit).hand c = 0 := rfl
    have hps : s'.pcs = put s.pcs t (.ret true .unit) := by subst hs'; rfl
    rw [harr, hps, List.count_append, count_drop_dead]
    · rw [show List.count (some c) [some b] = if b = c then 1 else 0 by simp [List.count_cons]]
      omega
    · intro i hi hi2
      rcases h.dead i hi hi2 with h3 | ⟨u, hu⟩
      · exact h3
      · exact absurd hu (hq u i).1

end Blink
