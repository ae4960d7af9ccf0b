import Verif.Proofs.GlobalSyncDirect
/-
  All steps of threads using a global allocator with two modes, and all histories.
-/
namespace Blink

/-! ### Writes -/

theorem GSInv.writeStep {g0 g cs D K I B} (h : GSInv g0 g cs D K I B) {b : Owned} {x : Nat} {v : Byte} (hb : b ∈ K.all) (hx : b.Has x) :
    GSGood g0 g K (.write x v) (gsstep g (.write x v)) := by
  right; right
  have hother : ∀ {y}, y ≠ x → setBytes g.s.w.mem x 1 (fun _ => v) y = g.s.w.mem y := fun hy => setBytes_out (by omega)
  -- the blocks threads hold are not `b`
  have hthr : ∀ u, (∀ c ∈ xOf K.blinkMode (K.busy u) (g.pcs u), ¬ c.Has x) ∧
      (K.blinkMode = false → ∀ c ∈ lent (K.busy u), ¬ c.Has x) := by
    intro u
    obtain ⟨R, S, f1, f2, _⟩ := h.fam.focus u
    have hap := h.apart
    have hap := ((f1.append f2.symm).pairwise_iff fun h => Owned.Apart.symm h).mp hap
    rw [List.pairwise_append, List.pairwise_append] at hap
    refine ⟨fun c hc hcx => ?_, fun hm c hc hcx => ?_⟩
    · rcases List.mem_append.mp hb with hb | hb
      · exact hap.1.2.2 b hb c (List.mem_append_left _ hc) x ⟨hx, hcx⟩
      · exact hap.2.2 c (List.mem_append_right _ (List.mem_append_left _ hc)) b (List.mem_append_left _ hb) x ⟨hcx, hx⟩
    · rw [hm] at hap
      have hc' : c ∈ K.direct ++ (if false = true then [] else lent (K.busy u) ++ S) :=
        List.mem_append_right _ (List.mem_append_left _ hc)
      rcases List.mem_append.mp hb with hb | hb
      · exact hap.2.2 b (List.mem_append_left _ hb) c hc' x ⟨hx, hcx⟩
      · have := hap.2.1
        rw [List.pairwise_append] at this
        exact this.2.2 b hb c (List.mem_append_left _ hc) x ⟨hx, hcx⟩
  have hin : ∃ B', SInv (g0.origin D) { g.s with w := { g.s.w with mem := setBytes g.s.w.mem x 1 (fun _ => v) } } cs I B' := by
    rcases List.mem_append.mp hb with hb | hb
    · rcases h.inner.step (.write (v := v) (h.blink_mem hb) hx) with ⟨e, _, he⟩ | he | ⟨r, s', cs', he, _, hI⟩
      · cases he
      · cases he
      · cases he
        obtain ⟨B', hI⟩ := hI I .write
        have : cs' = cs := cs_unique (m := setBytes g.s.w.mem x 1 (fun _ => v)) (log := g.s.w.log) hI.log h.inner.log hI.arena.rep
          (h.inner.arena.setUsed (f := fun _ => v) (.inr (h.blink_lok.byte hb hx))).rep hI.arena.ok h.inner.arena.ok
        subst this
        exact ⟨B', hI⟩
    · obtain ⟨d, hd, rfl⟩ := h.direct_mem hb
      refine ⟨B, h.inner.rebase (s0' := g0.origin D) (w' := { g.s.w with mem := setBytes g.s.w.mem x 1 (fun _ => v) }) ?_ ?_ rfl rfl rfl rfl rfl rfl rfl⟩
      · refine h.inner.arena.setMem ?_
        intro c hc y h1 h2
        have := h.direct_out hd hx c hc
        have := (h.inner.arena.ok c hc).lo; have := (h.inner.arena.ok c hc).hi
        exact hother (by omega)
      · rintro y ⟨c, hc, h1, h2⟩
        have := h.direct_out hd hx c hc
        have := (h.inner.arena.ok c hc).hi
        exact hother (by omega)
  obtain ⟨B', hin⟩ := hin
  refine ⟨_, _, rfl, ⟨?_, by rintro _ _ _ _ _ ⟨⟩⟩, ⟨_, .write⟩, ?_⟩
  · intro c hc _ y hy hw
    exact hother fun he => hw v (by rw [he])
  · intro K' ha
    cases ha
    refine ⟨cs, D, I, B', hin, h.mode, h.fam, h.good, h.sz, h.dlg, h.dbg, fun u => ?_⟩
    exact (h.thr u).frame (fun c hc y hy => hother fun he => (hthr u).1 c hc (he ▸ hy))
      (fun hm c hc y hy => hother fun he => (hthr u).2 hm c hc (he ▸ hy))

/-! ### Modes and resets -/

theorem GSInv.quiet {g0 g cs D K I B} (h : GSInv g0 g cs D K I B) (hq : ∀ t, K.busy t = none) :
    (∀ t, g.pcs t = .idle) ∧ (∀ t, I.busy t = none) ∧ I.owned.Perm K.blink ∧ K.direct.Perm (D.map BaseBlk.own) ∧
    g.allocations = if g.s.w.debug then K.blink.length else 0 := by
  have hp : ∀ t, g.pcs t = .idle := fun t => (h.busy_none (hq t)).1
  obtain ⟨h1, h2, h3⟩ := h.fam.idle hq hp
  refine ⟨hp, fun t => (h.busy_none (hq t)).2, h1, h2, ?_⟩
  have := count_bound h.inner.arena h.blink_lok (fun b hb => (h.sz b hb).1)
  rw [h3, Nat.mod_eq_of_lt (by omega)]

theorem SInv.lock_free {s0 s cs K B} (h : SInv s0 s cs K B) (hq : ∀ t, K.busy t = none) : s.writer = none ∧ s.readers = [] := by
  constructor
  · cases hw : s.writer with
    | none => rfl
    | some t =>
      have := (h.lock.wr t).mp hw
      rw [(h.busy_none (hq t)).1] at this
      cases this
  · cases hr : s.readers with
    | nil => rfl
    | cons t l =>
      have := (h.lock.rd t).mp (by rw [hr]; exact List.mem_cons_self)
      rw [(h.busy_none (hq t)).1] at this
      cases this

/-- The invariant with nobody inside, put together anew. -/
theorem GSInv.requiet {g0 g cs D K I B} (h : GSInv g0 g cs D K I B) (hq : ∀ t, K.busy t = none) {g' : GSS} {cs' I' B'} {K' : GSBook}
    (hin : SInv (g0.origin D) g'.s cs' I' B') (hI : ∀ t, I'.busy t = none) (hm : g'.enabled = K'.blinkMode) (hb : K'.busy = K.busy)
    (hp : g'.pcs = g.pcs) (ho : I'.owned.Perm K'.blink) (hd : K'.direct = K.direct) (hsz : ∀ b ∈ K'.blink, b ∈ K.blink)
    (hc : g'.allocations = if g'.s.w.debug then K'.blink.length else 0) (hdl : g'.dlog = g.dlog) (hdbg : g'.s.w.debug = g.s.w.debug) :
    GSInv g0 g' cs' D K' I' B' := by
  obtain ⟨q1, q2, q3, q4, q5⟩ := h.quiet hq
  refine ⟨hin, hm, .of_idle (by rw [hb]; exact hq) (by rw [hp]; exact q1) ho (by rw [hd]; exact q4) ?_, h.good,
    fun b hb => h.sz b (hsz b hb), by rw [hdl]; exact h.dlg, hdbg.trans h.dbg, ?_⟩
  · have hl := (hin.fam.owned.perm ho)
    have := count_bound hin.arena hl (fun b hb => (h.sz b (hsz b hb)).1)
    rw [hc, Nat.mod_eq_of_lt (by omega)]
  · intro t
    rw [hb, hq, hp, q1, hI]
    exact .idle

/-- `reset`: it panics in a debug build with blocks outstanding, otherwise the `SyncBlinkAlloc` is reset. -/
theorem GSInv.resetCases {g0 g cs D K I B} (h : GSInv g0 g cs D K I B) (hq : ∀ t, K.busy t = none) :
    (g.s.w.debug = true ∧ K.blink ≠ [] ∧ g.reset = .ok (some (some .panicked, g))) ∨
    (¬ (g.s.w.debug = true ∧ K.blink ≠ []) ∧ ∃ g' I' B', g.reset = .ok (some (some .unit, g')) ∧
      sstep g.s .resetUnchecked = .ok (some (none, g'.s)) ∧ g'.dlog = g.dlog ∧ g'.enabled = g.enabled ∧
      GSInv g0 g' (resetChunks cs) D { K with blink := [] } I' B' ∧ (∀ t, I'.busy t = none) ∧
      g'.s.w = resetWorld g.s.w cs ∧ ∀ b ∈ K.direct, ∀ x, b.Has x → g'.s.w.mem x = g.s.w.mem x) := by
  obtain ⟨q1, q2, q3, q4, q5⟩ := h.quiet hq
  unfold GSS.reset
  by_cases hc : g.s.w.debug = true ∧ K.blink ≠ []
  · left
    refine ⟨hc.1, hc.2, ?_⟩
    rw [if_pos]
    · rfl
    · refine ⟨hc.1, ?_⟩
      rw [q5, if_pos hc.1]
      exact fun h => hc.2 (List.eq_nil_of_length_eq_zero h)
  · right
    refine ⟨hc, ?_⟩
    have h0 : K.blink = [] ∨ g.s.w.debug = false := by
      by_cases hd : g.s.w.debug = true
      · exact .inl (Decidable.byContradiction fun hne => hc ⟨hd, hne⟩)
      · exact .inr (by simpa using hd)
    have ha0 : g.allocations = 0 := by
      rw [q5]
      rcases h0 with h0 | h0
      · rw [h0]; simp
      · rw [h0]; simp
    rw [if_neg (fun hh => hh.2 ha0)]
    have hs : sstep g.s .resetUnchecked =
        .ok (some (none, { g.s with w := resetWorld g.s.w cs, root := rootOf (resetChunks cs), seen := [] })) := by
      simp only [sstep, resetStep]
      rw [if_pos (h.inner.lock_free q2), ebind_ok' (by rw [h.inner.root]; exact arenaReset_keep h.inner.arena)]; rfl
    obtain ⟨_, hi⟩ := reset_spec (m := 0) h.inner.arena
    obtain ⟨B', hin⟩ := h.inner.resetTo q2 rfl hi (resetWorld_consts _ _) (resetWorld_log h.inner.arena h.inner.log)
    refine ⟨{ g with s := { g.s with w := resetWorld g.s.w cs, root := rootOf (resetChunks cs), seen := [] } }, _, B', ?_, hs, rfl, rfl,
      h.requiet hq hin q2 h.mode rfl rfl (.refl _) rfl (by simp) ?_ rfl (resetWorld_consts _ _).1, q2, rfl, ?_⟩
    · rw [ebind_ok' hs]; rfl
    · rw [ha0]; simp
    · intro b hb x hx
      obtain ⟨d, hd, rfl⟩ := h.direct_mem hb
      have hdF : d ∈ (g0.origin D).w.held := List.mem_append_left _ hd
      refine OpRes.outside (m := 0) (L := []) (op := .reset) (r := .unit) h.inner.arena hin.arena .reset ⟨rfl, rfl, rfl⟩ (by simp)
        (h.direct_out hd hx) (fun c hc => ?_)
      have hlen := (h.good d hd).len
      have h1 := hx.1; have h2 := hx.2
      simp only [BaseBlk.own, granted] at h1 h2
      have := hin.arena.foreign hdF hc
      omega

theorem GSInv.resetStep {g0 g cs D K I B} (h : GSInv g0 g cs D K I B) (hq : ∀ t, K.busy t = none) :
    GSGood g0 g K .reset (gsstep g .reset) := by
  right; right
  unfold gsstep
  dsimp only
  rcases h.resetCases hq with ⟨_, _, he⟩ | ⟨_, g', I', B', he, _, _, _, hi, _, _, hk⟩
  · refine ⟨_, _, he, ⟨fun _ _ _ _ _ _ => rfl, by rintro _ _ _ _ _ ⟨⟩⟩, ⟨_, .resetPanic⟩, ?_⟩
    intro K' ha; cases ha; exact ⟨_, _, _, _, h⟩
  · refine ⟨_, _, he, ⟨fun b _ hn x hx _ => hk b (hn rfl) x hx, by rintro _ _ _ _ _ ⟨⟩⟩, ⟨_, .reset⟩, ?_⟩
    intro K' ha; cases ha; exact ⟨_, _, _, _, hi⟩

theorem GSInv.directStep {g0 g cs D K I B} (h : GSInv g0 g cs D K I B) (hq : ∀ t, K.busy t = none) :
    GSGood g0 g K .directMode (gsstep g .directMode) := by
  right; right
  unfold gsstep
  dsimp only
  rcases h.resetCases hq with ⟨_, _, he⟩ | ⟨_, g', I', B', he, _, _, _, hi, hI', _, hk⟩
  · rw [ebind_ok' he]
    refine ⟨_, _, rfl, ⟨fun _ _ _ _ _ _ => rfl, by rintro _ _ _ _ _ ⟨⟩⟩, ⟨_, .directPanic⟩, ?_⟩
    intro K' ha; cases ha; exact ⟨_, _, _, _, h⟩
  · rw [ebind_ok' he]
    refine ⟨_, _, rfl, ⟨fun b _ hn x hx _ => hk b (hn rfl) x hx, by rintro _ _ _ _ _ ⟨⟩⟩, ⟨_, .directMode⟩, ?_⟩
    intro K' ha
    cases ha
    obtain ⟨q1, q2, q3, q4, q5⟩ := hi.quiet (K := { K with blink := [] }) hq
    exact ⟨_, _, _, _, hi.requiet (K := { K with blink := [] }) hq hi.inner hI' rfl rfl rfl q3 rfl (by simp) q5 rfl rfl⟩

theorem GSInv.blinkStep {g0 g cs D K I B} (h : GSInv g0 g cs D K I B) (hq : ∀ t, K.busy t = none) :
    GSGood g0 g K .blinkMode (gsstep g .blinkMode) := by
  right; right
  obtain ⟨q1, q2, q3, q4, q5⟩ := h.quiet hq
  refine ⟨_, _, rfl, ⟨fun _ _ _ _ _ _ => rfl, by rintro _ _ _ _ _ ⟨⟩⟩, ⟨_, .blinkMode⟩, ?_⟩
  intro K' ha
  cases ha
  exact ⟨_, _, _, _, h.requiet hq h.inner q2 rfl rfl rfl q3 rfl (fun _ h => h) q5 rfl rfl⟩

/-! ### All steps -/

/-- The steps that respect the contract of the underlying allocator, too: in direct mode `realloc` must not change the size. -/
def GSCalm (K : GSBook) : GAct → Prop
  | .go t _ => K.blinkMode = true ∨ ∀ p l n b, K.busy t = some (.realloc p l n, b) → n = l.size ∨ ISIZE < n + l.align
  | _ => True

theorem GSInv.step {g0 g cs D K I B} (h : GSInv g0 g cs D K I B) {a : GAct} (hl : GSLegal K a) (hc : GSCalm K a) :
    GSGood g0 g K a (gsstep g a) := by
  cases a with
  | call t c => exact h.callStep hl
  | write x v => cases hl with | write ho hx => exact h.writeStep ho hx
  | reset => cases hl with | reset hq => exact h.resetStep hq
  | blinkMode => cases hl with | blinkMode hq => exact h.blinkStep hq
  | directMode => cases hl with | directMode hq => exact h.directStep hq
  | go t ch =>
    show GSGood g0 g K (.go t ch) (ggo g t ch)
    cases hpc : g.pcs t with
    | idle => exact .inr (.inl (by unfold ggo; rw [hpc]; rfl))
    | blink c => exact h.goBlink hpc
    | zero l s k => exact h.goZero hpc
    | fin c r => exact h.goFin hpc
    | direct c =>
      refine (h.goDirect hpc ?_).1
      rintro p l n rfl
      have ht := h.thr t
      rw [hpc] at ht
      obtain ⟨bz, hbz⟩ : ∃ bz, K.busy t = bz := ⟨_, rfl⟩
      rw [hbz] at ht
      generalize I.busy t = ibz at ht
      cases ht with
      | dRealloc hm hi hz hv _ =>
        rcases hc with hc | hc
        · rw [hm] at hc; cases hc
        · rcases hc _ _ _ _ hbz with hc | hc
          · exact hc
          · omega

/-- A `realloc` in direct mode that changes the size of a block never returns normally. -/
theorem GSInv.uncalm {g0 g cs D K I B} (h : GSInv g0 g cs D K I B) {t : Nat} {ch : Choice} {p : Nat} {l : Layout} {n : Nat} {b : Option Owned}
    (hm : K.blinkMode = false) (hb : K.busy t = some (.realloc p l n, b)) (hn : n ≠ l.size) (hv : n + l.align ≤ ISIZE) :
    ∃ why, gsstep g (.go t ch) = .error (.ub why) := by
  show ∃ why, ggo g t ch = .error (.ub why)
  have ht := h.thr t
  rw [hb, hm] at ht
  generalize hpc : g.pcs t = pc at ht
  generalize I.busy t = ibz at ht
  cases ht with
  | bRealloc hm' => cases hm'
  | finRealloc hm' => cases hm'
  | finReallocErr _ hl => have := hl rfl; omega
  | dRealloc _ hi => exact h.goWrong hm hi hn hpc hb

theorem GSInv.calm {g0 g cs D K I B} (h : GSInv g0 g cs D K I B) {a : GAct} {x} (hs : gsstep g a = .ok x) : GSCalm K a := by
  cases a with
  | go t ch =>
    cases hm : K.blinkMode with
    | true => exact .inl hm
    | false =>
      refine .inr fun p l n b hb => ?_
      by_cases h1 : n = l.size
      · exact .inl h1
      · by_cases h2 : ISIZE < n + l.align
        · exact .inr h2
        · obtain ⟨why, he⟩ := h.uncalm (ch := ch) hm hb h1 (by omega)
          rw [he] at hs; cases hs
  | _ => trivial

theorem GSInv.step_ok {g0 g cs D K I B} (h : GSInv g0 g cs D K I B) {a : GAct} (hl : GSLegal K a) {r g' K'}
    (hs : gsstep g a = .ok (some (r, g'))) (ha : GSAfter g.s.w.mem K a r K') :
    GSRes K a r g g' ∧ ∃ cs' D' I' B', GSInv g0 g' cs' D' K' I' B' := by
  rcases h.step hl (h.calm hs) with ⟨e, _, he⟩ | he | ⟨r1, g1, he, hr, _, hi⟩
  · rw [he] at hs; cases hs
  · rw [he] at hs; cases hs
  · rw [he] at hs
    cases hs
    exact ⟨hr, hi _ ha⟩

theorem GSRun.inv {g0 g1 : GSS} {K0 K : GSBook} {tr : List (GAct × Option GResp)} {g : GSS} {cs0 D0 I0 B0}
    (h0 : GSInv g0 g1 cs0 D0 K0 I0 B0) (h : GSRun g1 K0 tr g K) : ∃ cs D I B, GSInv g0 g cs D K I B := by
  induction h with
  | nil => exact ⟨_, _, _, _, h0⟩
  | snoc _ hl hs ha ih =>
    obtain ⟨cs, D, I, B, hi⟩ := ih
    exact (hi.step_ok hl hs ha).2

theorem GSReach.inv {g0 g K} (h : GSReach g0 g K) : ∃ cs D I B, GSInv g0 g cs D K I B := by
  obtain ⟨h0, tr, hr⟩ := h
  exact hr.inv h0.inv

end Blink
