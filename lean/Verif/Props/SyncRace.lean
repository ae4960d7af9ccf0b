import Verif.Proofs.SyncRace
import Verif.Props.SyncMore
import Verif.Proofs.GlobalSyncProg
/-
  Property theorems about `SyncBlinkAlloc` whose `reset_unchecked` races with calls of `allocate` by other threads: C66.
  `RReach s0 s R` (Verif/Spec/SyncRace.lean): `s` is reached from a fresh shared allocator in state `s0` by an arbitrary schedule of
  arbitrarily many threads; the callers' book is `R`.
-/
namespace Blink

/-! ### C66 -/

/-- C66: no step of any thread faults, unless the underlying allocator breaks its contract in that very step. -/
theorem C66_no_ub {s0 s : SS} {R : RBook} (h : RReach s0 s R) {a : Act} (hl : RLegal R a) {e : Fault}
    (he : sstep s a = .error e) : BadAnswer s.w e := by
  obtain ⟨cs, B, hi⟩ := h.inv
  rcases hi.rstep hl with ⟨e', hbad, he'⟩ | he' | ⟨r, s', cs', he', _⟩
  · rw [he'] at he; injection he with he; subst he; exact hbad
  · rw [he'] at he; cases he
  · rw [he'] at he; cases he

/-- C66: any two owned blocks have no byte in common. -/
theorem C66_no_overlap {s0 s : SS} {R : RBook} (h : RReach s0 s R) : R.owned.Pairwise Owned.Apart := by
  obtain ⟨cs, B, hi⟩ := h.inv
  exact hi.fam.owned.apart

/-- C66: every owned block is aligned and long enough for its layout, not null, and lies inside one block that was obtained from the
underlying allocator by this allocator and is still held from it. -/
theorem C66_layout_and_memory {s0 s : SS} {R : RBook} (h : RReach s0 s R) {b : Owned} (hb : b ∈ R.owned) :
    b.addr % b.align = 0 ∧ b.size ≤ b.len ∧ 0 < b.addr ∧
    ∃ B ∈ openBlocks s.w.log, B ∈ s.w.held ∧ B.addr ≤ b.addr ∧ b.addr + b.len ≤ B.addr + B.len := by
  obtain ⟨cs, B, hi⟩ := h.inv
  obtain ⟨h1, _, h3, d, hd, h4, h5⟩ := hi.fam.owned.each b hb
  have hd' := hi.arena.ok d hd
  have := hd'.lo; have := hd'.hi
  refine ⟨h3, h1, by omega, d.blk, ?_, hi.arena.mem_held hd, ?_, ?_⟩
  · rw [hi.log.1]; exact List.mem_map_of_mem hd
  · simp only [Chunk.blk]; omega
  · simp only [Chunk.blk]; omega

/-- C66: what is held from the underlying allocator is what others held plus what this allocator obtained and did not give back. -/
theorem C66_held {s0 s : SS} {R : RBook} (h : RReach s0 s R) : s.w.held.Perm (openBlocks s.w.log ++ s0.w.held) := by
  obtain ⟨cs, B, hi⟩ := h.inv
  rw [hi.log.1]
  exact hi.arena.perm

/-- C66: an `allocate` that was not overtaken by a reset and returns a block gives its thread a block for exactly the requested
layout. -/
theorem C66_allocate {s0 s s' : SS} {R : RBook} (h : RReach s0 s R) {t : Nat} {ch : Choice} {l : Layout} {b : Slice}
    (hb : R.busy t = some (.allocate l, none)) (hf : R.stale t = false)
    (hs : sstep s (.go t ch) = .ok (some (some (.block b), s'))) :
    ∃ R', RReach s0 s' R' ∧ R'.owned = Owned.of b l :: R.owned ∧ b.addr % l.align = 0 ∧ l.size ≤ b.len := by
  obtain ⟨h0, tr, hr⟩ := h
  have h' : RReach s0 s' _ := ⟨h0, _, hr.snoc (.other .go) hs (.other (.ret hb) (by simp) (by
    intro u ch' he _; injection he with he; subst he; exact hf))⟩
  have := C66_layout_and_memory h' (b := Owned.of b l) List.mem_cons_self
  exact ⟨_, h', rfl, this.1, this.2.1⟩

/-- C66: no step of anybody changes a byte of a block that somebody owns, except a store to that byte by its owner and a reset. -/
theorem C66_frame {s0 s s' : SS} {R : RBook} (h : RReach s0 s R) {a : Act} (hl : RLegal R a) {r : Option Resp}
    (hs : sstep s a = .ok (some (r, s'))) {b : Owned} (hb : b ∈ R.owned) {x : Nat} (hx : b.Has x)
    (hw : ∀ v, a ≠ .write x v) (hr : a ≠ .reset ∧ a ≠ .resetUnchecked ∧ a ≠ .resetFinal) : s'.w.mem x = s.w.mem x := by
  obtain ⟨cs, B, hi⟩ := h.inv
  rcases hi.rstep hl with ⟨e', _, he'⟩ | he' | ⟨r', s1, cs', he', hfr, _⟩
  · rw [he'] at hs; cases hs
  · rw [he'] at hs; cases hs
  · rw [he'] at hs
    injection hs with hs; injection hs with hs; injection hs with _ h2
    subst h2
    refine hfr b hb x hx ?_ hw
    cases a <;> first | rfl | exact absurd rfl hr.1 | exact absurd rfl hr.2.1 | exact absurd rfl hr.2.2

/-- C66: a `resize` that returns a block returns one holding the old contents as they were when the call was made, and one that fails
leaves the old block with its contents. -/
theorem C66_resize {s0 s s' : SS} {R : RBook} (h : RReach s0 s R) {t p : Nat} {old new : Layout} {ob : Option Owned}
    (hb : R.busy t = some (.resize p old new, ob)) {ch : Choice} {r : Resp}
    (hs : sstep s (.go t ch) = .ok (some (some r, s'))) :
    (∃ blk, r = .block blk ∧ ∀ i, i < min old.size new.size → s'.w.mem (blk.addr + i) = R.snap t (p + i)) ∨
    (∃ b, r = .err ∧ ob = some b ∧ b.Fits p old ∧ ∀ x, b.Has x → s'.w.mem x = R.snap t x) := by
  obtain ⟨cs, B, hi⟩ := h.inv
  exact resize_ret_inv hi hb hs

/-- C66: `reset_unchecked` waits exactly as long as somebody holds the lock. When it happens no thread is using the chunks, all chunks
but the newest are given back, newest first, and no thread notices in the middle of its call. -/
theorem C66_reset_unchecked {s0 s : SS} {R : RBook} (h : RReach s0 s R) (hl : RLegal R .resetUnchecked) :
    ((s.readers ≠ [] ∨ s.writer ≠ none) ∧ sstep s .resetUnchecked = .ok none) ∨
    ((s.readers = [] ∧ s.writer = none) ∧ (∀ t, (s.pcs t).outside) ∧
      ∃ s' R', sstep s .resetUnchecked = .ok (some (none, s')) ∧ RReach s0 s' R' ∧ R'.owned = [] ∧ R'.busy = R.busy ∧
      s'.pcs = s.pcs ∧
      s'.w.log = (((openBlocks s.w.log).drop 1).map fun b => .dealloc b.addr ⟨b.len, 8⟩).reverse ++ s.w.log ∧
      openBlocks s'.w.log = (openBlocks s.w.log).take 1 ∧
      s'.w.held.Perm ((openBlocks s.w.log).take 1 ++ s0.w.held)) := by
  obtain ⟨cs, B, hI⟩ := h.inv
  have hq : ∀ t c b, R.busy t ≠ some (c, some b) := by
    cases hl with
    | race hq => exact hq
    | other hl => cases hl with | resetUnchecked hq => intro t c b hb; rw [hq t] at hb; cases hb
  rcases hI.race hq with ⟨hf, he⟩ | ⟨hf, s', hs', he, B', hB⟩
  · refine .inl ⟨?_, he⟩
    by_cases h1 : s.readers = []
    · exact .inr fun h2 => hf ⟨h2, h1⟩
    · exact .inl h1
  · have hR : RReach s0 s' { R with owned := [], stale := fun t => (R.busy t).isSome } := by
      obtain ⟨h0, tr, hr⟩ := h
      exact ⟨h0, _, hr.snoc hl he .race⟩
    have hlog : s'.w.log = (((openBlocks s.w.log).drop 1).map fun b => .dealloc b.addr ⟨b.len, 8⟩).reverse ++ s.w.log := by
      rw [hI.log.1, hs']
      cases cs with
      | nil => rfl
      | cons c t =>
        show (freeAll (rewound s.w c) t).log = _
        rw [(freeAll_fields _ _).2.2.2.2]
        simp only [List.map_cons, List.drop_succ_cons, List.drop_zero, List.map_map]
        rfl
    have e : openBlocks s'.w.log = (openBlocks s.w.log).take 1 := by
      rw [hB.log.1, hI.log.1]
      cases cs <;> rfl
    refine .inr ⟨⟨hf.2, hf.1⟩, fun t => Pc.outside_of ?_ ?_, s', _, he, hR, rfl, rfl, by rw [hs'], hlog, e, ?_⟩
    · cases hx : (s.pcs t).holdsR with
      | false => rfl
      | true => have := (hI.lock.rd t).mpr hx; rw [hf.2] at this; cases this
    · cases hx : (s.pcs t).holdsW with
      | false => rfl
      | true => have := (hI.lock.wr t).mpr hx; rw [hf.1] at this; cases this
    · rw [← e]; exact C66_held hR

/-- C66: a thread that holds the lock can always make its next step, so `reset_unchecked` is not kept waiting by a thread that
waits itself. -/
theorem C66_holder_enabled {s0 s : SS} {R : RBook} (h : RReach s0 s R) {t : Nat} (ht : t ∈ s.readers ∨ s.writer = some t)
    (ch : Choice) : sstep s (.go t ch) ≠ .ok none := by
  obtain ⟨cs, B, hi⟩ := h.inv
  exact (hi.holder ht).2 ch

/-- C66: a call that is left alone finishes, also after it was overtaken by a reset. -/
theorem C66_finishes_alone {s0 s : SS} {R : RBook} (h : RReach s0 s R) {t : Nat} {c : Call} {ob : Option Owned}
    (hb : R.busy t = some (c, ob)) (hf : s.Free t) :
    (∃ r s', solo (c.bytes + 10) s t = .ok (some (r, s'))) ∨
      ∃ e w, solo (c.bytes + 10) s t = .error e ∧ w.oracle = s0.w.oracle ∧ BadAnswer w e := by
  obtain ⟨cs, B, hi⟩ := h.inv
  exact hi.finishes _ (by rw [hb]; simp) hf (hi.left_call hb)

/-- Histories without races are among those considered here. -/
theorem SReach.race {s0 s : SS} {K : Book} (h : SReach s0 s K) : RReach s0 s ⟨K, fun _ => false⟩ := by
  obtain ⟨h0, tr, hr⟩ := h
  refine ⟨h0, tr, ?_⟩
  induction hr with
  | nil => exact .nil
  | @snoc tr s K a r s' K' hr hl hs ha ih =>
    by_cases hq : a = .resetUnchecked
    · subst hq
      have hn : r = none := by cases ha; rfl
      subst hn
      cases hl with
      | resetUnchecked hq =>
        have := ih.snoc (.other (.resetUnchecked hq)) hs .race
        have e : (fun t => (K.busy t).isSome) = fun _ => false := by funext t; rw [hq t]; rfl
        cases ha
        dsimp only at this
        rw [e] at this
        exact this
    · exact ih.snoc (.other hl) hs (.other ha hq fun _ _ _ _ => rfl)

/-- If nobody ever called anything but `allocate`, no block is in the hands of a call. -/
theorem SRun.only_allocate {s0 tr s K} (h : SRun s0 Book.empty tr s K)
    (ho : ∀ x ∈ tr, ∀ t c, x.1 = .call t c → ∃ l, c = .allocate l) (t c b) : K.busy t ≠ some (c, some b) := by
  induction h generalizing t c b with
  | nil => simp [Book.empty]
  | @snoc tr s K a r s' K' hr hl hs ha ih =>
    have ih' := ih fun x hx => ho x (List.mem_append_left _ hx)
    have tab : ∀ {u : Nat} {v}, (∀ c b, v ≠ some (c, some b)) → put K.busy u v t ≠ some (c, some b) := by
      intro u v hv
      by_cases hu : t = u
      · subst hu; rw [put_same]; exact hv c b
      · rw [put_ne _ _ hu]; exact ih' t c b
    have hc := ho (a, r) (by simp)
    cases ha with
    | allocate => exact tab (by simp)
    | resize => obtain ⟨l, hl⟩ := hc _ _ rfl; cases hl
    | deallocate => obtain ⟨l, hl⟩ := hc _ _ rfl; cases hl
    | ret => exact tab (by simp)
    | _ => exact ih' t c b

/-- One step of a concrete history: as `sexec1`, but a block that was overtaken by a reset is lost. -/
def rexec1 (s : SS) (R : RBook) (a : Act) : Option (Option Resp × SS × RBook) :=
  match sexec1 s R.toBook a with
  | some (r, s', K') =>
    match a, r with
    | .go t _, some _ => if R.stale t then some (r, s', { R with busy := put R.busy t none, stale := put R.stale t false })
      else some (r, s', ⟨K', R.stale⟩)
    | .resetUnchecked, _ => none
    | _, _ => some (r, s', ⟨K', R.stale⟩)
  | none => none

theorem rexec1_sound {s R a r s' R'} (h : rexec1 s R a = some (r, s', R')) :
    RLegal R a ∧ sstep s a = .ok (some (r, s')) ∧ RAfter s.w.mem R a r R' := by
  unfold rexec1 at h
  split at h
  case h_2 => cases h
  rename_i r1 s1 K1 h1
  obtain ⟨a1, a2, a3⟩ := sexec1_sound h1
  split at h
  · rename_i t ch v
    split at h
    · rename_i hst
      cases h
      generalize ha : Act.go t ch = a at a3
      generalize hr : some v = r at a3
      cases a3 with
      | inside => cases hr
      | ret hb => cases ha; cases hr; exact ⟨.other a1, a2, .lost hb hst⟩
      | _ => cases ha
    · rename_i hst
      cases h
      refine ⟨.other a1, a2, .other a3 (by simp) ?_⟩
      intro u ch' he _
      injection he with he; subst he
      simpa using hst
  · cases h
  · rename_i hn1 hn2
    cases h
    refine ⟨.other a1, a2, .other a3 (fun he => ?_) ?_⟩
    · exact hn1 he
    · intro t ch he hne
      cases r with
      | none => exact absurd rfl hne
      | some v => exact (hn2 t ch v he rfl).elim

/-- Run a list of actions. -/
def rexecAll (s : SS) (R : RBook) : List Act → Option (SS × RBook)
  | [] => some (s, R)
  | a :: as =>
    match rexec1 s R a with
    | none => none
    | some (_, s', R') => rexecAll s' R' as

theorem rexecAll_sound {s0 s R as s' R'} (h : RReach s0 s R) (he : rexecAll s R as = some (s', R')) : RReach s0 s' R' := by
  induction as generalizing s R with
  | nil => cases he; exact h
  | cons a as ih =>
    unfold rexecAll at he
    split at he
    · cases he
    · rename_i r s1 R1 h1
      obtain ⟨a1, a2, a3⟩ := rexec1_sound h1
      obtain ⟨h0, tr, hr⟩ := h
      exact ih ⟨h0, _, hr.snoc a1 a2 a3⟩ he

/-- Threads 1 and 2 find no chunk; 1 makes one and gets its block while 2 waits for the write lock. -/
def overtakenActs : List Act := [.call 1 (.allocate ⟨100, 8⟩), .call 2 (.allocate ⟨10, 16⟩)] ++ goes 1 2 ++ goes 2 2 ++ goes 1 3

/-- Thread 2 carries on after the reset; then thread 3 allocates. -/
def overtakenActs2 : List Act := goes 2 3 ++ [.call 3 (.allocate ⟨7, 1⟩)] ++ goes 3 4

/-- What holds after `overtakenActs`, a reset and `overtakenActs2` (see the example). -/
def overtakenDemo : Bool :=
  match sexecAll (sdemoStart [512, 1024] 256) Book.empty overtakenActs with
  | none => false
  | some (_, s, K) =>
    decide (K.owned = [⟨65568, 100, 100, 8⟩]) && decide (s.pcs 2 = .wr (.alloc ⟨10, 16⟩)) &&
    decide (K.busy 2 = some (.allocate ⟨10, 16⟩, none)) &&
    match sstep s .resetUnchecked with
    | .ok (some (none, s1)) =>
      match rexecAll s1 ⟨{ K with owned := [] }, fun t => (K.busy t).isSome⟩ overtakenActs2 with
      | some (s2, R2) => decide (s2.pcs 2 = .idle) && decide (R2.owned = [⟨131114, 7, 7, 1⟩])
      | none => false
    | _ => false

/-- The hypotheses of C66 are met: thread 1 has obtained a block, thread 2 has found no room for its own and waits for the write lock,
and now the allocator is reset. Thread 2 then carries on and gets a block, which it may not use; thread 3 gets one it may use. -/
example : ∃ s0 s R s1 R1 s2 R2, RReach s0 s R ∧ R.owned = [⟨65568, 100, 100, 8⟩] ∧ s.pcs 2 = .wr (.alloc ⟨10, 16⟩) ∧
    RLegal R .resetUnchecked ∧ sstep s .resetUnchecked = .ok (some (none, s1)) ∧ RReach s0 s1 R1 ∧ R1.stale 2 = true ∧
    R1.busy 2 = some (.allocate ⟨10, 16⟩, none) ∧ RReach s0 s2 R2 ∧ s2.pcs 2 = .idle ∧ R2.owned = [⟨131114, 7, 7, 1⟩] := by
  have h : overtakenDemo = true := by decide +kernel
  unfold overtakenDemo at h
  split at h
  · cases h
  rename_i rs s K h1
  simp only [Bool.and_eq_true, decide_eq_true_eq] at h
  obtain ⟨⟨⟨e1, e2⟩, e3⟩, h⟩ := h
  split at h
  case h_2 => cases h
  rename_i s1 h2
  split at h
  case h_2 => cases h
  rename_i s2 R2 h3
  simp only [Bool.and_eq_true, decide_eq_true_eq] at h
  have hrun := sexecAll_sound h1
  have h0 := sdemoStart_start [512, 1024] 256 (by decide)
  have hR := SReach.race ⟨h0, _, hrun⟩
  have hl : RLegal (⟨K, fun _ => false⟩ : RBook) .resetUnchecked := by
    refine .race (hrun.only_allocate fun x hx t c he => ?_)
    have hm : x.1 ∈ overtakenActs := (List.of_mem_zip (a := x.1) (b := x.2) hx).1
    rw [he] at hm
    simp [overtakenActs, goes] at hm
    rcases hm with hm | hm
    · exact ⟨_, hm.2⟩
    · exact ⟨_, hm.2⟩
  have hR1 : RReach (sdemoStart [512, 1024] 256) s1 ⟨{ K with owned := [] }, fun t => (K.busy t).isSome⟩ := by
    obtain ⟨_, tr, hr⟩ := hR
    exact ⟨h0, _, hr.snoc hl h2 .race⟩
  refine ⟨_, s, _, s1, _, s2, R2, hR, e1, e2, hl, h2, hR1, ?_, e3, rexecAll_sound hR1 h3, h.1, h.2⟩
  show (K.busy 2).isSome = true
  rw [e3]; rfl

end Blink
