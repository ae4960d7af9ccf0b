import Verif.Proofs.SyncWarm
import Verif.Props.SyncMore
/-
  Property theorems about a `SyncBlinkAlloc` that was reset and is used by any number of threads again (C95).
-/
namespace Blink

/-! ### C95 -/

/-- The accounts are in order right after a reset. -/
theorem warm_start {s0 s s1 : SS} {K : Book} (h : SReach s0 s K) (hq : ∀ t, K.busy t = none) {a : Act}
    (ha : a = .reset ∨ a = .resetUnchecked) (hs : sstep s a = .ok (some (none, s1))) {B : BaseBlk}
    (hB : openBlocks s1.w.log = [B]) : SReach s0 s1 { K with owned := [] } ∧ WarmAt s1 s1 0 ∧ s1.root = B.addr := by
  obtain ⟨cs, Bs, hI⟩ := h.inv
  have hlk : s.writer = none ∧ s.readers = [] := by
    constructor
    · cases hw : s.writer with
      | none => rfl
      | some u => have := (hI.lock.wr u).mp hw; rw [(hI.busy_none (hq u)).1] at this; cases this
    · cases hr : s.readers with
      | nil => rfl
      | cons u l => have := (hI.lock.rd u).mp (by rw [hr]; exact List.mem_cons_self); rw [(hI.busy_none (hq u)).1] at this; cases this
  have e : sstep s a = .ok (some (none, { s with w := resetWorld s.w cs, root := rootOf (resetChunks cs), seen := [] })) := by
    rcases ha with rfl | rfl
    · simp only [sstep, resetStep]
      rw [hI.root, ebind_ok (arenaReset_keep hI.arena)]; rfl
    · simp only [sstep, resetStep]
      rw [if_pos hlk, hI.root, ebind_ok (arenaReset_keep hI.arena)]; rfl
  have hR : SReach s0 s1 { K with owned := [] } := by
    obtain ⟨h0, tr, hr⟩ := h
    rcases ha with rfl | rfl
    · exact ⟨h0, _, hr.snoc (.reset hq) hs .reset⟩
    · exact ⟨h0, _, hr.snoc (.resetUnchecked hq) hs .resetUnchecked⟩
  rw [e] at hs
  injection hs with hs; injection hs with hs; injection hs with _ hs
  obtain ⟨_, hA⟩ := reset_spec (m := 0) hI.arena
  obtain ⟨_, hI1⟩ := hI.resetTo hq rfl hA (resetWorld_consts _ _) (resetWorld_log hI.arena hI.log)
  rw [hs] at hI1
  have hB' := hI1.log.1
  rw [hB] at hB'
  cases cs with
  | nil => cases hB'
  | cons c tl =>
    have hidle : ∀ t, s1.pcs t = .idle := fun t => (hI1.busy_none (hq t)).1
    have hr : s1.root = c.start := hI1.root
    refine ⟨hR, ⟨rfl, rfl, rfl, rfl, fun t => by rw [hidle t]; rfl, c.start + 32, hI1.cursor_eq rfl, fun T _ => ?_⟩, ?_⟩
    · have e0 : (T.map fun t => (s1.pcs t).due) = T.map fun _ => 0 := List.map_congr_left fun u _ => by rw [hidle u]; rfl
      rw [e0, hr]
      have : ∀ T : List Nat, (T.map fun _ => 0).sum = 0 := by
        intro T
        induction T with
        | nil => rfl
        | cons _ _ ih => simpa using ih
      rw [this]
      omega
    · rw [hr]
      injection hB' with hB' _
      rw [hB']; rfl

/-- One chunk, and it is the block `B`. -/
theorem SInv.one_chunk {s0 s cs K Bs} (h : SInv s0 s cs K Bs) {B : BaseBlk} (hB : openBlocks s.w.log = [B]) :
    ∃ c, cs = [c] ∧ c.end_ = B.addr + B.len := by
  have e := h.log.1
  rw [hB] at e
  match cs, e, h with
  | [c], e, h =>
    refine ⟨c, rfl, ?_⟩
    injection e with e _
    have hok := h.arena.ok c List.mem_cons_self
    have := hok.lo; have := hok.hi
    have h1 : B.addr = c.start := by rw [e]; rfl
    have h2 : B.len = c.end_ - c.start := by rw [e]; rfl
    omega

/-- The accounts stay in order. -/
theorem warm_run {s0 s1 : SS} {K1 : Book} (hR : SReach s0 s1 K1) (hW : WarmAt s1 s1 0) {B : BaseBlk}
    (hB : openBlocks s1.w.log = [B]) (hr : s1.root = B.addr) {tr : List (Act × Option Resp)} {s2 : SS} {K2 : Book}
    (hrun : SRun s1 K1 tr s2 K2) (hnr : ∀ x ∈ tr, x.1.resets = false) (hc : scostOf tr + 32 ≤ B.len) :
    SReach s0 s2 K2 ∧ WarmAt s1 s2 (scostOf tr) ∧ ∀ x ∈ tr, x.2 ≠ some .err := by
  have reach : ∀ {tr s K}, SRun s1 K1 tr s K → SReach s0 s K := by
    intro tr s K h
    obtain ⟨h0, tr0, hr0⟩ := hR
    exact ⟨h0, _, hr0.trans h⟩
  induction hrun with
  | nil => exact ⟨hR, hW, by simp⟩
  | @snoc tr s K a r s' K' hprev hl hs ha ih =>
    have ec : scostOf (tr ++ [(a, r)]) = scostOf tr + a.cost := by simp [scostOf]
    rw [ec] at hc ⊢
    obtain ⟨i1, i2, i3⟩ := ih (fun x hx => hnr x (List.mem_append_left _ hx)) (by omega)
    obtain ⟨cs, Bs, hI⟩ := i1.inv
    obtain ⟨c, rfl, he⟩ := hI.one_chunk (B := B) (by rw [i2.log]; exact hB)
    have hcur := hI.cursor_eq (c := c) rfl
    refine ⟨reach (hprev.snoc hl hs ha), ?_⟩
    have fin : WarmAt s1 s' (scostOf tr + a.cost) ∧ r ≠ some .err → WarmAt s1 s' (scostOf tr + a.cost) ∧
        ∀ x ∈ tr ++ [(a, r)], x.2 ≠ some .err := by
      rintro ⟨f1, f2⟩
      refine ⟨f1, fun x hx => ?_⟩
      rw [List.mem_append, List.mem_singleton] at hx
      rcases hx with hx | rfl
      · exact i3 x hx
      · exact f2
    have call : ∀ u cl, a = .call u cl → (Pc.rd cl).due ≤ a.cost → WarmAt s1 s' (scostOf tr + a.cost) ∧ r ≠ some .err := by
      rintro u cl rfl hd
      simp only [sstep] at hs
      split at hs
      · injection hs with hs; injection hs with hs; injection hs with h1 h2
        subst h1 h2
        exact ⟨i2.next (t := u) (cur' := c.cursor) hcur rfl rfl rfl rfl (fun v hv => SS.setPc_ne _ _ hv) (by rw [SS.setPc_same]; rfl) hcur
          (by rw [SS.setPc_same]; omega) (by omega), by simp⟩
      · cases hs
    apply fin
    have hno := hnr (a, r) (List.mem_append_right _ List.mem_cons_self)
    cases hl with
    | allocate => exact call _ _ rfl (Nat.le_refl _)
    | resize => exact call _ _ rfl (Nat.le_refl _)
    | deallocate => exact call _ _ rfl (Nat.le_refl _)
    | @go u ch => exact i2.go hI i1.readOK' (by simp only [Act.cost] at hc; omega) (hI.go_res hs)
    | @write b x v ho hx =>
      simp only [sstep] at hs
      injection hs with hs; injection hs with hs; injection hs with h1 h2
      subst h1 h2
      have hA := hI.arena.setUsed (f := fun _ => v) (.inr (hI.fam.owned.byte ho hx))
      refine ⟨i2.next (t := 0) (d := 0) (cur' := c.cursor) hcur rfl rfl rfl rfl (fun _ _ => rfl) (i2.calm 0) ?_ (Nat.le_refl _)
        (by omega), by simp⟩
      unfold SS.cursor
      rw [show s.root = c.start from hI.root]
      exact decodeWord_of hA.rep.1.1
    | reset => cases hno
    | resetUnchecked => cases hno
    | resetFinal => cases hno

/-- C95: any number of threads use a shared allocator that was reset and kept the block `B`. As long as the sizes plus worst-case
paddings of all calls started since do not exceed the capacity of `B`, then whatever the schedule: the underlying allocator is
asked for nothing and gets nothing back, no call fails, and nobody ever holds the lock for writing. -/
theorem C95_warm {s0 s s1 s2 : SS} {K K2 : Book} (h : SReach s0 s K) (hq : ∀ t, K.busy t = none) {a : Act}
    (ha : a = .reset ∨ a = .resetUnchecked) (hs : sstep s a = .ok (some (none, s1))) {B : BaseBlk}
    (hB : openBlocks s1.w.log = [B]) {tr : List (Act × Option Resp)} (hrun : SRun s1 { K with owned := [] } tr s2 K2)
    (hnr : ∀ x ∈ tr, x.1.resets = false) (hc : scostOf tr + 32 ≤ B.len) :
    (∀ x ∈ tr, x.2 ≠ some .err) ∧ s2.w.calls = s1.w.calls ∧ s2.w.log = s1.w.log ∧ s2.w.held = s1.w.held ∧ s2.writer = none := by
  obtain ⟨hR, hW, hr⟩ := warm_start h hq ha hs hB
  obtain ⟨h2, w, he⟩ := warm_run hR hW hB hr hrun hnr hc
  obtain ⟨cs, Bs, hI⟩ := h2.inv
  refine ⟨he, w.calls, w.log, w.held, ?_⟩
  cases hw : s2.writer with
  | none => rfl
  | some t =>
    have h1 := (hI.lock.wr t).mp hw
    have h2 := w.calm t
    cases hp : s2.pcs t with
    | copy wr _ _ _ _ _ => cases wr <;> rw [hp] at h1 h2 <;> first | (cases h2; done) | (cases h1; done)
    | ret wr _ => cases wr <;> rw [hp] at h1 h2 <;> first | (cases h2; done) | (cases h1; done)
    | _ => rw [hp] at h1 h2; first | (cases h2; done) | (cases h1; done)

/-- C95: under the same conditions no thread ever waits and nothing faults, whatever the underlying allocator would answer: every
thread executing a call can make its next step, and does not come back with a failure. -/
theorem C95_never_waits {s0 s s1 s2 : SS} {K K2 : Book} (h : SReach s0 s K) (hq : ∀ t, K.busy t = none) {a : Act}
    (ha : a = .reset ∨ a = .resetUnchecked) (hs : sstep s a = .ok (some (none, s1))) {B : BaseBlk}
    (hB : openBlocks s1.w.log = [B]) {tr : List (Act × Option Resp)} (hrun : SRun s1 { K with owned := [] } tr s2 K2)
    (hnr : ∀ x ∈ tr, x.1.resets = false) (hc : scostOf tr + 32 ≤ B.len) {t : Nat} (hb : K2.busy t ≠ none) (ch : Choice) :
    ∃ r s3, sstep s2 (.go t ch) = .ok (some (r, s3)) ∧ r ≠ some .err ∧ s3.w.log = s2.w.log := by
  obtain ⟨_, _, _, _, hno⟩ := C95_warm h hq ha hs hB hrun hnr hc
  obtain ⟨hR, hW, hr⟩ := warm_start h hq ha hs hB
  obtain ⟨h2, w, he⟩ := warm_run hR hW hB hr hrun hnr hc
  obtain ⟨cs, Bs, hI⟩ := h2.inv
  obtain ⟨c, rfl, hce⟩ := hI.one_chunk (B := B) (by rw [w.log]; exact hB)
  have hcalm := w.calm t
  rcases hI.go_exact t ch with ⟨_, j, hp, _⟩ | ⟨hw, _⟩ | ⟨r, s3, hgo, hg⟩
  · rw [hp] at hcalm; cases hcalm
  · exfalso
    rcases hw with hp | ⟨_, hw⟩ | ⟨⟨j, hp⟩, _⟩
    · have := hI.thr t
      rw [hp] at this
      exact hb this.of_idle
    · exact hw hno
    · rw [hp] at hcalm; cases hcalm
  · obtain ⟨w', hne⟩ := w.go hI h2.readOK' (by omega) hg
    exact ⟨r, s3, hgo, hne, w'.log.trans w.log.symm⟩

/-- Two threads fill a chunk and a second one; after a reset each got a block and both are inside
again. -/
def warmDemo (s : SS) (K : Book) : Bool :=
  match sstep s .reset with
  | .ok (some (none, s1)) =>
    match openBlocks s1.w.log with
    | [B] =>
      match sexecAll s1 { K with owned := [] } warmActs with
      | some (rs, _, K2) => (warmActs.zip rs).all (fun x => x.1.resets == false) && decide (scostOf (warmActs.zip rs) + 32 ≤ B.len) &&
        (K2.busy 1).isSome && (K2.busy 2).isSome && decide (K2.owned.length = 2) && decide (900 ≤ scostOf (warmActs.zip rs))
      | none => false
    | _ => false
  | _ => false
where
  warmActs : List Act := [.call 1 (.allocate ⟨100, 8⟩), .call 2 (.allocate ⟨200, 16⟩)] ++ goes 1 2 ++ goes 2 2 ++ goes 1 2 ++ goes 2 3 ++
    [.call 1 (.allocate ⟨300, 8⟩), .call 2 (.allocate ⟨300, 1⟩)] ++ goes 1 3 ++ goes 2 2

example : ∃ s0 s K s1 B tr s2 K2, SReach s0 s K ∧ (∀ t, K.busy t = none) ∧ sstep s .reset = .ok (some (none, s1)) ∧
    openBlocks s1.w.log = [B] ∧ SRun s1 { K with owned := [] } tr s2 K2 ∧ (∀ x ∈ tr, x.1.resets = false) ∧ scostOf tr + 32 ≤ B.len ∧
    K2.busy 1 ≠ none ∧ K2.busy 2 ≠ none ∧ K2.owned.length = 2 ∧ 900 ≤ scostOf tr := by
  obtain ⟨s, K, h, hq, hf⟩ := of_sdemoQuiet (sizes := [512, 1024]) (m := 256) (ts := [1, 2])
    (as := [.call 1 (.allocate ⟨100, 8⟩)] ++ goes 1 5 ++ [.call 2 (.allocate ⟨600, 8⟩)] ++ goes 2 7)
    (f := warmDemo) (by decide) (by decide +kernel)
  unfold warmDemo at hf
  split at hf
  case h_2 => cases hf
  rename_i s1 h1
  split at hf
  case h_2 => cases hf
  rename_i B hB
  split at hf
  case h_2 => cases hf
  rename_i rs s2 K2 h2
  simp only [Bool.and_eq_true, decide_eq_true_eq, List.all_eq_true, beq_iff_eq] at hf
  obtain ⟨⟨⟨⟨⟨a1, a2⟩, a3⟩, a4⟩, a5⟩, a6⟩ := hf
  refine ⟨_, s, K, s1, B, _, s2, K2, h, hq, h1, hB, sexecAll_sound h2, a1, a2, ?_, ?_, a5, a6⟩
  · intro h; rw [h] at a3; cases a3
  · intro h; rw [h] at a4; cases a4

end Blink
