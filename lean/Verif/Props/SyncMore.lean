import Verif.Props.Room
import Verif.Props.Indep
import Verif.Props.Sync
/-
  Property theorems about `SyncBlinkAlloc` used by any number of threads: giving memory back (C54, C59), failing (C60), asking for
  chunks (C61).
-/
namespace Blink

/-! ### C59 -/

/-- C59: `reset` and `reset_unchecked` give back all chunks but the newest, newest first. -/
theorem C59_reset {s0 s : SS} {K : Book} (h : SReach s0 s K) (hq : ∀ t, K.busy t = none) {a : Act}
    (ha : a = .reset ∨ a = .resetUnchecked) :
    ∃ s', sstep s a = .ok (some (none, s')) ∧ SReach s0 s' { K with owned := [] } ∧
      s'.w.log = (((openBlocks s.w.log).drop 1).map fun b => .dealloc b.addr ⟨b.len, 8⟩).reverse ++ s.w.log ∧
      openBlocks s'.w.log = (openBlocks s.w.log).take 1 ∧
      s'.w.held.Perm ((openBlocks s.w.log).take 1 ++ s0.w.held) := by
  obtain ⟨cs, B, hI⟩ := h.inv
  have hlk : s.writer = none ∧ s.readers = [] := by
    constructor
    · cases hw : s.writer with
      | none => rfl
      | some u => have := (hI.lock.wr u).mp hw; rw [(hI.busy_none (hq u)).1] at this; cases this
    · cases hr : s.readers with
      | nil => rfl
      | cons u l => have := (hI.lock.rd u).mp (by rw [hr]; exact List.mem_cons_self); rw [(hI.busy_none (hq u)).1] at this; cases this
  have hs : sstep s a = .ok (some (none, { s with w := resetWorld s.w cs, root := rootOf (resetChunks cs), seen := [] })) := by
    rcases ha with rfl | rfl
    · simp only [sstep, resetStep]
      rw [hI.root, ebind_ok (arenaReset_keep hI.arena)]; rfl
    · simp only [sstep, resetStep]
      rw [if_pos hlk, hI.root, ebind_ok (arenaReset_keep hI.arena)]; rfl
  have hR : SReach s0 { s with w := resetWorld s.w cs, root := rootOf (resetChunks cs), seen := [] } { K with owned := [] } := by
    obtain ⟨h0, tr, hr⟩ := h
    rcases ha with rfl | rfl
    · exact ⟨h0, _, hr.snoc (.reset hq) hs .reset⟩
    · exact ⟨h0, _, hr.snoc (.resetUnchecked hq) hs .resetUnchecked⟩
  have e : openBlocks (resetWorld s.w cs).log = (openBlocks s.w.log).take 1 := by
    have h1 := (OpRes.log (m := s.minChunk) (op := .reset) (cs' := resetChunks cs) hI.arena ⟨rfl, rfl, rfl⟩ hI.log).1
    rw [h1, hI.log.1]
    cases cs <;> rfl
  refine ⟨_, hs, hR, ?_, e, ?_⟩
  · rw [hI.log.1]
    cases cs with
    | nil => rfl
    | cons c t =>
      show (freeAll (rewound s.w c) t).log = _
      rw [(freeAll_fields _ _).2.2.2.2]
      simp only [List.map_cons, List.drop_succ_cons, List.drop_zero, List.map_map]
      rfl
  · rw [← e]
    exact C22_held hR

/-- C59: `reset_final` gives back all chunks. -/
theorem C59_reset_final {s0 s : SS} {K : Book} (h : SReach s0 s K) (hq : ∀ t, K.busy t = none) :
    ∃ s', sstep s .resetFinal = .ok (some (none, s')) ∧ SReach s0 s' { K with owned := [] } ∧ s'.root = 0 ∧
      s'.w.log = ((openBlocks s.w.log).map fun b => .dealloc b.addr ⟨b.len, 8⟩).reverse ++ s.w.log ∧
      openBlocks s'.w.log = [] ∧ s'.w.held.Perm s0.w.held := by
  obtain ⟨cs, B, hI⟩ := h.inv
  have hs : sstep s .resetFinal = .ok (some (none, { s with w := freeAll s.w cs, root := 0, seen := [] })) := by
    simp only [sstep, resetStep]
    rw [hI.root, ebind_ok (arenaReset_all hI.arena)]; rfl
  have hR : SReach s0 { s with w := freeAll s.w cs, root := 0, seen := [] } { K with owned := [] } := by
    obtain ⟨h0, tr, hr⟩ := h
    exact ⟨h0, _, hr.snoc (.resetFinal hq) hs .resetFinal⟩
  have e : openBlocks (freeAll s.w cs).log = [] :=
    (OpRes.log (m := s.minChunk) (op := .resetFinal) hI.arena ⟨rfl, rfl, rfl⟩ hI.log).1
  refine ⟨_, hs, hR, rfl, ?_, e, ?_⟩
  · rw [hI.log.1]
    show (freeAll s.w cs).log = _
    rw [(freeAll_fields _ _).2.2.2.2]
    simp only [List.map_map]
    rfl
  · have := C22_held hR
    rw [e] at this
    exact this

/-- C59: whatever the schedule, each block given back to the underlying allocator was open and is named with a fitting layout. -/
theorem C59_frees_fit {s0 s : SS} {K : Book} (h : SReach s0 s K) :
    FreesOK s.w.log ∧ (openBlocks s.w.log).Pairwise (fun b c => b.addr ≠ c.addr) := by
  obtain ⟨cs, B, hI⟩ := h.inv
  refine ⟨hI.log.2, ?_⟩
  rw [hI.log.1]
  have hp := (List.pairwise_append.mp hI.arena.pairwise).1
  rw [List.pairwise_map] at *
  refine hp.imp_of_mem ?_
  intro c d hc hd hdis
  have hc' := hI.arena.ok c hc
  have hd' := hI.arena.ok d hd
  have := hc'.lo; have := hc'.hi; have := hd'.lo; have := hd'.hi
  simp only [BaseBlk.Disjoint, Chunk.blk] at *
  omega

/-! ### C54 for `SyncBlinkAlloc` -/

/-- C54: dropping a `SyncBlinkAlloc` gives everything back, and the assertion of `Drop for ArenaSync` holds. -/
theorem C54_sync_drop {s0 s : SS} {K : Book} (h : SReach s0 s K) (hq : ∀ t, K.busy t = none) :
    ∃ w, s.scopeEnd false = .ok w ∧ openBlocks w.log = [] ∧ w.held.Perm s0.w.held := by
  obtain ⟨s', h1, _, h2, _, h3, h4⟩ := C59_reset_final h hq
  refine ⟨s'.w, ?_, h3, h4⟩
  unfold SS.scopeEnd
  simp only [Bool.false_eq_true, if_false]
  rw [ebind_ok h1]
  simp [dassert, h2, bind, Except.bind, pure, Except.pure]

/-- C54: `SyncBlinkAlloc::into_inner` calls nothing and touches nothing; what was obtained and not given back stays held. -/
theorem C54_sync_into_inner {s0 s : SS} {K : Book} (h : SReach s0 s K) :
    ∃ w, s.intoInner = .ok w ∧ w.log = s.w.log ∧ w.mem = s.w.mem ∧ w.held.Perm (openBlocks s.w.log ++ s0.w.held) :=
  ⟨s.w, rfl, rfl, rfl, C22_held h⟩

/-- Non-vacuity of C59 and C54: three chunks were obtained by two threads, several blocks are owned, nobody executes a call. -/
example : ∃ s0 s K, SReach s0 s K ∧ (∀ t, K.busy t = none) ∧ (openBlocks s.w.log).length = 3 ∧ K.owned.length = 3 := by
  obtain ⟨s, K, h, hq, hf⟩ := of_sdemoQuiet (sizes := [512, 1024, 4096]) (m := 256) (ts := [1, 2])
    (as := [.call 1 (.allocate ⟨100, 8⟩), .call 2 (.allocate ⟨10, 16⟩)] ++ goes 1 2 ++ goes 2 2 ++ goes 1 3 ++ goes 2 3 ++
      [.call 1 (.allocate ⟨1900, 8⟩)] ++ goes 1 7)
    (f := fun s K => decide ((openBlocks s.w.log).length = 3) && decide (K.owned.length = 3)) (by decide) (by decide +kernel)
  simp only [Bool.and_eq_true, decide_eq_true_eq] at hf
  exact ⟨_, s, K, h, hq, hf⟩

/-! ### What happened during a call -/

/-- If something became true during a history, it became true in one step. -/
theorem SRun.cross {s1 K1 tr s2 K2} (h : SRun s1 K1 tr s2 K2) (Q : SS → Prop) (h1 : ¬ Q s1) (h2 : Q s2) :
    ∃ tr1 sm Km a r sm' Km' tr2, tr = tr1 ++ (a, r) :: tr2 ∧ SRun s1 K1 tr1 sm Km ∧ SLegal Km a ∧
      sstep sm a = .ok (some (r, sm')) ∧ SAfter sm.w.mem Km a r Km' ∧ SRun sm' Km' tr2 s2 K2 ∧ ¬ Q sm ∧ Q sm' := by
  induction h with
  | nil => exact absurd h2 h1
  | @snoc tr s K a r s' K' hr hl hs ha ih =>
    by_cases hq : Q s
    · obtain ⟨tr1, sm, Km, a1, r1, sm', Km', tr2, e, b1, b2, b3, b4, b5, b6, b7⟩ := ih hq
      exact ⟨tr1, sm, Km, a1, r1, sm', Km', tr2 ++ [(a, r)], by rw [e]; simp, b1, b2, b3, b4, b5.snoc hl hs ha, b6, b7⟩
    · exact ⟨tr, s, K, a, r, s', K', [], by simp, hr, hl, hs, ha, .nil, hq, h2⟩

/-- Only `t` moves `t`. -/
theorem sstep_pc {s s' : SS} {a : Act} {r} (hs : sstep s a = .ok (some (r, s'))) {t : Nat} (hne : s'.pcs t ≠ s.pcs t)
    (hgo : ∀ u ch, a = .go u ch → u ≠ t → s'.pcs t = s.pcs t) :
    (∃ c, a = .call t c ∧ s'.pcs t = .rd c) ∨ ∃ ch, a = .go t ch := by
  have hreset : ∀ k, resetStep s k = .ok (some (r, s')) → False := by
    intro k hres
    unfold resetStep at hres
    cases hx : arenaReset s.root k s.w with
    | error e => rw [ebind_err hx] at hres; cases hres
    | ok y =>
      rw [ebind_ok hx] at hres
      injection hres with hres; injection hres with hres; injection hres with _ h2
      subst h2
      exact hne rfl
  cases a with
  | call u c =>
    simp only [sstep] at hs
    split at hs
    · injection hs with hs; injection hs with hs; injection hs with _ h2
      subst h2
      by_cases hu : t = u
      · subst hu; exact .inl ⟨c, rfl, SS.setPc_same _ _ _⟩
      · exact absurd (SS.setPc_ne _ _ hu) hne
    · cases hs
  | go u ch =>
    by_cases hu : u = t
    · subst hu; exact .inr ⟨ch, rfl⟩
    · exact absurd (hgo u ch rfl hu) hne
  | write x v =>
    simp only [sstep] at hs
    injection hs with hs; injection hs with hs; injection hs with _ h2
    subst h2
    exact absurd rfl hne
  | reset => exact (hreset _ hs).elim
  | resetUnchecked =>
    simp only [sstep] at hs
    split at hs
    · exact (hreset _ hs).elim
    · cases hs
  | resetFinal => exact (hreset _ hs).elim

/-- If thread `t` got into a situation `P` during a history, not being in it at the beginning, it got there by a step of its own. -/
theorem SRun.entered {s0 s1 K1 tr s2 K2} (h1 : SReach s0 s1 K1) (hr : SRun s1 K1 tr s2 K2) {t : Nat} (P : Pc → Prop)
    (hrd : ∀ c, ¬ P (.rd c)) (hn : ¬ P (s1.pcs t)) (hy : P (s2.pcs t)) :
    ∃ tr1 sm Km ch r sm' tr2, tr = tr1 ++ (.go t ch, r) :: tr2 ∧ SRun s1 K1 tr1 sm Km ∧ SReach s0 sm Km ∧
      sstep sm (.go t ch) = .ok (some (r, sm')) ∧ (∃ Km', SAfter sm.w.mem Km (.go t ch) r Km' ∧ SRun sm' Km' tr2 s2 K2) ∧
      ¬ P (sm.pcs t) ∧ P (sm'.pcs t) := by
  obtain ⟨tr1, sm, Km, a, r, sm', Km', tr2, e, b1, b2, b3, b4, b5, b6, b7⟩ := hr.cross (fun s => P (s.pcs t)) hn hy
  have hm : SReach s0 sm Km := by
    obtain ⟨h0, tr0, hr0⟩ := h1
    exact ⟨h0, _, hr0.trans b1⟩
  obtain ⟨cs, B, hI⟩ := hm.inv
  rcases sstep_pc b3 (t := t) (fun he => b6 (by rw [he] at b7; exact b7))
    (fun u ch ha hu => by subst ha; exact (hI.go_res b3).others (Ne.symm hu)) with ⟨c, _, hc⟩ | ⟨ch, ha⟩
  · rw [hc] at b7
    exact absurd b7 (hrd c)
  · subst ha
    exact ⟨tr1, sm, Km, ch, r, sm', tr2, e, b1, hm, b3, ⟨Km', b4, b5⟩, b6, b7⟩

theorem call_pc {s s1 : SS} {t : Nat} {c : Call} {r} (hs : sstep s (.call t c) = .ok (some (r, s1))) : s1.pcs t = .rd c := by
  simp only [sstep] at hs
  split at hs
  · injection hs with hs; injection hs with hs; injection hs with _ h2
    subst h2
    exact SS.setPc_same _ _ _
  · cases hs

theorem call_busy_after {m : Nat → Byte} {K K1 : Book} {t : Nat} {c : Call} {r} (ha : SAfter m K (.call t c) r K1) :
    ∃ ob, K1.busy t = some (c, ob) := by
  cases ha <;> exact ⟨_, put_same _ _ _⟩

/-! ### C60 -/

/-- C60: a call answers `Err` only if, at some moment between call and return, the underlying allocator refused a request that
this thread made for this call, or no request could be made because the chunk size computation left the range of `usize`. -/
theorem C60_fails_for_a_reason {s0 s s1 s2 s3 : SS} {K K1 K2 : Book} (h : SReach s0 s K) {t : Nat} {c : Call} {l : Layout}
    (hw : c.wants = some l) (hl : SLegal K (.call t c)) (hs : sstep s (.call t c) = .ok (some (none, s1)))
    (ha : SAfter s.w.mem K (.call t c) none K1) {tr} (hr : SRun s1 K1 tr s2 K2) (hno : ∀ ch r, (Act.go t ch, some r) ∉ tr)
    {ch : Choice} (hret : sstep s2 (.go t ch) = .ok (some (some .err, s3))) :
    ∃ tr1 sm Km ch' sm' tr2, tr = tr1 ++ (.go t ch', none) :: tr2 ∧ SRun s1 K1 tr1 sm Km ∧
      sstep sm (.go t ch') = .ok (some (none, sm')) ∧
      ((∃ R, sm'.w.log = .refused R :: sm.w.log ∧ sm.w.oracle sm.w.calls = none ∧ sm'.w.calls = sm.w.calls + 1) ∨
       (sm'.w = sm.w ∧ USIZE ≤ max sm.minChunk (totalLen (openBlocks sm.w.log)) + max l.size 64 + l.align + 32 + 16384 + 8)) := by
  have h1 : SReach s0 s1 K1 := by
    obtain ⟨h0, tr0, hr0⟩ := h
    exact ⟨h0, _, hr0.snoc hl hs ha⟩
  have h2 : SReach s0 s2 K2 := by
    obtain ⟨h0, tr0, hr0⟩ := h1
    exact ⟨h0, _, hr0.trans hr⟩
  have hpc : ∃ wr, s2.pcs t = .ret wr .err := by
    obtain ⟨cs, B, hi⟩ := h2.inv
    have hg := hi.go_res hret
    cases hg with
    | retW hpc => exact ⟨true, hpc⟩
    | retR hpc => exact ⟨false, hpc⟩
  obtain ⟨tr1, sm, Km, ch', r, sm', tr2, e, b1, b2, b3, b4, b5, b6⟩ := hr.entered h1 (t := t) (fun pc => ∃ wr, pc = .ret wr .err)
    (fun c => by rintro ⟨_, h⟩; cases h) (by rw [call_pc hs]; rintro ⟨_, h⟩; cases h) hpc
  have hrn : r = none := by
    cases r with
    | none => rfl
    | some r => exact absurd (by rw [e]; simp) (hno ch' r)
  subst hrn
  refine ⟨tr1, sm, Km, ch', sm', tr2, e, b1, b3, ?_⟩
  obtain ⟨cs, B, hi⟩ := b2.inv
  obtain ⟨ob, hb1⟩ := call_busy_after ha
  have hbz := (b1.snap (t := t) hb1 fun ch r hm => hno ch r (by rw [e]; exact List.mem_append_left _ hm)).1
  have hlay : ∀ j, sm.pcs t = .slow j → j.layout = l ∧ l.Valid := by
    intro j hpc
    have ht := hi.thr t
    obtain ⟨Bt, hB⟩ : ∃ Bt, B t = Bt := ⟨_, rfl⟩
    rw [hbz, hB, hpc] at ht
    cases ht with
    | slow hj =>
      have hv := hj.valid
      cases hj with
      | alloc => injection hw with hw; subst hw; exact ⟨rfl, hv⟩
      | resize => injection hw with hw; subst hw; exact ⟨rfl, hv⟩
  have hg := hi.go_res b3
  cases hg with
  | @slowErr j w' cs' hpc he =>
    obtain ⟨rfl, hv⟩ := hlay j hpc
    rcases allocSlow_spec hi.arena hv hi.dbg with ⟨e', _, he'⟩ | ⟨r, w'', cs'', he', hsl, _⟩
    · rw [← hi.root, he] at he'; cases he'
    · rw [← hi.root, he] at he'
      injection he' with he'
      injection he' with he1 he2
      injection he1 with he1 he3
      subst he1 he2
      cases hsl with
      | tooBig hreq => exact .inr ⟨rfl, tooBig_facts hi.arena hi.log hreq⟩
      | refused R hreq ho => exact .inl ⟨_, rfl, ho, rfl⟩
  | @commit c tl j => obtain ⟨wr, hx⟩ := b6; rw [SS.setPc_same] at hx; cases j <;> cases hx
  | @slowOk j => obtain ⟨wr, hx⟩ := b6; rw [SS.setPc_same] at hx; cases j <;> cases hx
  | @acq cl =>
    obtain ⟨wr, hx⟩ := b6
    rw [SS.setPc_same] at hx
    unfold enter at hx
    cases cl <;> dsimp only at hx <;> repeat' split at hx
    all_goals cases hx
  | _ => obtain ⟨wr, hx⟩ := b6; rw [SS.setPc_same] at hx; cases hx

/-- Non-vacuity of `C60_fails_for_a_reason`: thread 1 is refused the chunk it asks for; in the meantime thread 2 works in the
current one. -/
example : ∃ s0 s K s1 K1 tr s2 K2 s3, SReach s0 s K ∧ SLegal K (.call 1 (.allocate ⟨900, 8⟩)) ∧
    sstep s (.call 1 (.allocate ⟨900, 8⟩)) = .ok (some (none, s1)) ∧ SAfter s.w.mem K (.call 1 (.allocate ⟨900, 8⟩)) none K1 ∧
    SRun s1 K1 tr s2 K2 ∧ (∀ ch r, (Act.go 1 ch, some r) ∉ tr) ∧ sstep s2 (.go 1 fresh) = .ok (some (some .err, s3)) := by
  obtain ⟨s, K, s1, K1, tr, s2, K2, r, s3, h1, h2, h3, h4, h5, h6, h7, h8⟩ := of_scallAt (sizes := [512]) (m := 256)
    (pre := [.call 1 (.allocate ⟨100, 8⟩)] ++ goes 1 5) (t := 1) (c := .allocate ⟨900, 8⟩)
    (mid := goes 1 2 ++ [.call 2 (.allocate ⟨10, 8⟩)] ++ goes 2 4 ++ goes 1 4) (f := fun _ r _ => decide (r = some .err))
    (by decide) (by decide +kernel)
  simp only [decide_eq_true_eq] at h8
  subst h8
  exact ⟨_, s, K, s1, K1, tr, s2, K2, s3, h1, h2, h3, h4, h5, h6, h7⟩

/-! ### C61 -/

/-- C61 in full: a chunk is requested only if, at that moment, the current chunk has no room for what the call asks for. -/
def C61_full : Prop :=
  ∀ (s0 s s' : SS) (K : Book) (t : Nat) (ch : Choice) (r : Option Resp) (c : Call) (ob : Option Owned) (l R : Layout) (b : Slice),
    SReach s0 s K → K.busy t = some (c, ob) → c.wants = some l → sstep s (.go t ch) = .ok (some (r, s')) →
    s'.w.log = .alloc R b :: s.w.log → s.NoRoom l

/-- C61 is false: two threads ask for 8 bytes when there is no chunk. Both see that there is none and queue for the write lock. The
first obtains a chunk with plenty of room; the second obtains another one. -/
theorem C61_full_false : ¬ C61_full := by
  intro h
  obtain ⟨s, K, hr, hf⟩ := of_sdemoAt (sizes := [512, 1024]) (m := 256)
    (as := [.call 1 (.allocate ⟨8, 8⟩), .call 2 (.allocate ⟨8, 8⟩)] ++ goes 1 2 ++ goes 2 2 ++ goes 1 3 ++ goes 2 1)
    (f := fun s K => decide (K.busy 2 = some (.allocate ⟨8, 8⟩, none)) && decide (s.toLocal.room = some (65576, 66048)) &&
      (match sstep s (.go 2 fresh) with
       | .ok (some (none, s')) => decide (s'.w.log.drop 1 = s.w.log) && decide (s'.w.log.head?.any fun e => match e with
           | .alloc _ _ => true
           | _ => false)
       | _ => false)) (by decide) (by decide +kernel)
  simp only [Bool.and_eq_true, decide_eq_true_eq] at hf
  obtain ⟨⟨h1, h2⟩, h3⟩ := hf
  split at h3
  · rename_i s' hs
    simp only [Bool.and_eq_true, decide_eq_true_eq] at h3
    obtain ⟨h3, h4⟩ := h3
    cases hlog : s'.w.log with
    | nil => rw [hlog] at h4; cases h4
    | cons e rest =>
      rw [hlog] at h3 h4
      simp only [List.drop_succ_cons, List.drop_zero] at h3
      subst h3
      cases e with
      | alloc R b => exact absurd (h _ s s' K 2 fresh none _ _ ⟨8, 8⟩ R b hr h1 rfl hs hlog _ _ h2 65576 (by decide) (by decide) (by decide)) (by decide)
      | _ => cases h4
  · cases h3

/-- C61, what does hold: at some moment between the call and the request, the chunk that was current then (if any) had no room. -/
theorem C61_no_room_partial {s0 s s1 s2 s3 : SS} {K K1 K2 : Book} (h : SReach s0 s K) {t : Nat} {c : Call} {l : Layout}
    (hw : c.wants = some l) (hl : SLegal K (.call t c)) (hs : sstep s (.call t c) = .ok (some (none, s1)))
    (ha : SAfter s.w.mem K (.call t c) none K1) {tr} (hr : SRun s1 K1 tr s2 K2) (hno : ∀ ch r, (Act.go t ch, some r) ∉ tr)
    {ch : Choice} {r : Option Resp} (hreq : sstep s2 (.go t ch) = .ok (some (r, s3))) (hlog : s3.w.log ≠ s2.w.log) :
    ∃ tr1 sm Km tr2, tr = tr1 ++ tr2 ∧ SRun s1 K1 tr1 sm Km ∧ SRun sm Km tr2 s2 K2 ∧ sm.NoRoom l := by
  have h1 : SReach s0 s1 K1 := by
    obtain ⟨h0, tr0, hr0⟩ := h
    exact ⟨h0, _, hr0.snoc hl hs ha⟩
  have h2 : SReach s0 s2 K2 := by
    obtain ⟨h0, tr0, hr0⟩ := h1
    exact ⟨h0, _, hr0.trans hr⟩
  have hpc : ∃ j, s2.pcs t = .slow j := by
    obtain ⟨cs, B, hi⟩ := h2.inv
    have hg := hi.go_res hreq
    cases hg with
    | slowErr hpc => exact ⟨_, hpc⟩
    | slowOk hpc => exact ⟨_, hpc⟩
    | _ => exact absurd rfl hlog
  let P : Pc → Prop := fun pc => (∃ j, pc = .slow j) ∨ (∃ j, pc = .wr j) ∨ ∃ j, pc = .unlockSlow j
  obtain ⟨tr1, sm, Km, ch', r', sm', tr2, e, b1, b2, b3, ⟨Km', b4, b4'⟩, b5, b6⟩ := hr.entered h1 (t := t) P
    (fun c => by rintro (⟨_, h⟩ | ⟨_, h⟩ | ⟨_, h⟩) <;> cases h)
    (by rw [call_pc hs]; rintro (⟨_, h⟩ | ⟨_, h⟩ | ⟨_, h⟩) <;> cases h) (.inl hpc)
  refine ⟨tr1, sm, Km, (.go t ch', r') :: tr2, e, b1, ?_, ?_⟩
  · exact SRun.trans (tr1 := [(.go t ch', r')]) (SRun.snoc (tr := []) .nil .go b3 b4) b4'
  obtain ⟨cs, B, hi⟩ := b2.inv
  obtain ⟨ob, hb1⟩ := call_busy_after ha
  have hbz := (b1.snap (t := t) hb1 fun ch r hm => hno ch r (by rw [e]; exact List.mem_append_left _ hm)).1
  have ht := hi.thr t
  obtain ⟨Bt, hB⟩ : ∃ Bt, B t = Bt := ⟨_, rfl⟩
  rw [hbz, hB] at ht
  have hg := hi.go_res b3
  cases hg with
  | @acq cl hpc hwn =>
    have hroot : sm.root = 0 := by
      apply Classical.byContradiction
      intro hne
      rw [SS.setPc_same] at b6
      unfold enter at b6
      cases cl <;> dsimp only at b6 <;> rw [if_neg hne] at b6 <;> repeat' split at b6
      all_goals (rcases b6 with ⟨_, h⟩ | ⟨_, h⟩ | ⟨_, h⟩ <;> cases h)
    intro pos e hroom
    unfold St.room SS.toLocal at hroom
    dsimp only at hroom
    rw [if_pos hroot] at hroom
    cases hroom
  | @noroom c1 tl j v hpc hcs hrt hb =>
    rw [hpc] at ht
    obtain ⟨cur, q1, q2⟩ := b2.readOK' t v (by rw [hpc]; rfl)
    have hlay : j.layout = l ∧ l.Valid := by
      cases ht with
      | cas _ hj =>
        have hv := hj.valid
        cases hj with
        | alloc => injection hw with hw; subst hw; exact ⟨rfl, hv⟩
        | resize => injection hw with hw; subst hw; exact ⟨rfl, hv⟩
    obtain ⟨rfl, hv⟩ := hlay
    subst hcs
    rw [hi.cursor_eq rfl] at q1
    injection q1 with q1
    intro pos e hroom q r1 r2 r3
    rw [hi.room] at hroom
    simp only [List.head?_cons, Option.map_some, Option.some.injEq, Prod.mk.injEq] at hroom
    obtain ⟨rfl, rfl⟩ := hroom
    apply Decidable.byContradiction
    intro hc
    rw [bump_of_fit hv (by omega) r2 r3 (by omega)] at hb
    cases hb
  | @rnoroom c1 tl p old new hpc hcs hrt hb =>
    rw [hpc] at ht
    obtain ⟨cur, q1, q2⟩ := b2.readOK' t (p + old.size) (by rw [hpc]; rfl)
    have hlay : new = l := by
      cases ht with
      | rcas _ hj => cases hj; injection hw
    subst hlay hcs
    rw [hi.cursor_eq rfl] at q1
    injection q1 with q1
    intro pos e hroom q r1 r2 r3
    rw [hi.room] at hroom
    simp only [List.head?_cons, Option.map_some, Option.some.injEq, Prod.mk.injEq] at hroom
    obtain ⟨rfl, rfl⟩ := hroom
    omega
  | @commit c tl j => rw [SS.setPc_same] at b6; rcases b6 with ⟨_, h⟩ | ⟨_, h⟩ | ⟨_, h⟩ <;> cases j <;> cases h
  | @slowOk j => rw [SS.setPc_same] at b6; rcases b6 with ⟨_, h⟩ | ⟨_, h⟩ | ⟨_, h⟩ <;> cases j <;> cases h
  | @unlock j hpc => exact absurd (.inr (.inr ⟨j, hpc⟩)) b5
  | @wr j hpc => exact absurd (.inr (.inl ⟨j, hpc⟩)) b5
  | _ => rw [SS.setPc_same] at b6; rcases b6 with ⟨_, h⟩ | ⟨_, h⟩ | ⟨_, h⟩ <;> cases h

/-- Non-vacuity of `C61_no_room_partial`: the second thread of `C61_full_false`. -/
example : ∃ s0 s K s1 K1 tr s2 K2 r s3, SReach s0 s K ∧ SLegal K (.call 2 (.allocate ⟨8, 8⟩)) ∧
    sstep s (.call 2 (.allocate ⟨8, 8⟩)) = .ok (some (none, s1)) ∧ SAfter s.w.mem K (.call 2 (.allocate ⟨8, 8⟩)) none K1 ∧
    SRun s1 K1 tr s2 K2 ∧ (∀ ch r, (Act.go 2 ch, some r) ∉ tr) ∧ sstep s2 (.go 2 fresh) = .ok (some (r, s3)) ∧
    s3.w.log ≠ s2.w.log ∧ s2.toLocal.room = some (65576, 66048) := by
  obtain ⟨s, K, s1, K1, tr, s2, K2, r, s3, h1, h2, h3, h4, h5, h6, h7, h8⟩ := of_scallAt (sizes := [512, 1024]) (m := 256)
    (pre := [.call 1 (.allocate ⟨8, 8⟩)] ++ goes 1 2) (t := 2) (c := .allocate ⟨8, 8⟩)
    (mid := goes 2 2 ++ goes 1 3 ++ goes 2 1)
    (f := fun s2 _ s3 => decide (s3.w.log ≠ s2.w.log) && decide (s2.toLocal.room = some (65576, 66048)))
    (by decide) (by decide +kernel)
  simp only [Bool.and_eq_true, decide_eq_true_eq] at h8
  exact ⟨_, s, K, s1, K1, tr, s2, K2, r, s3, h1, h2, h3, h4, h5, h6, h7, h8⟩

end Blink
