import Verif.Props.GlobalBoth
import Verif.Props.SyncMore
/-
  C86, continued: resets, mode switches and the end of a `GlobalBlinkAlloc` used in both modes, with proxies, beside other users of the underlying
  allocator.
-/
namespace Blink

/-! ### Giving memory back asks for no answer -/

/-- `f` does not fail by an answer of the underlying allocator. -/
def NoEnv {α} (f : M α) : Prop := ∀ w l s, f w ≠ .error (.env l s)

theorem NoEnv.pure {α} (a : α) : NoEnv (Pure.pure a : M α) := nofun

theorem NoEnv.bind {α β} {x : M α} {f : α → M β} (hx : NoEnv x) (hf : ∀ a, NoEnv (f a)) : NoEnv (x >>= f) := by
  intro w l s h
  cases h1 : x w with
  | ok p => rw [bind_ok h1] at h; exact hf _ _ _ _ h
  | error e => rw [bind_err h1] at h; cases h; exact hx _ _ _ h1

theorem NoEnv.loadWord (a : Nat) : NoEnv (Blink.loadWord a) := by
  intro w l s h
  unfold Blink.loadWord at h
  repeat (split at h)
  all_goals cases h

theorem NoEnv.storeWord (a v : Nat) : NoEnv (Blink.storeWord a v) := by
  intro w l s h
  unfold Blink.storeWord at h
  repeat (split at h)
  all_goals cases h

theorem NoEnv.addU (a b : Nat) : NoEnv (Blink.addU a b) := by
  intro w l s h
  unfold Blink.addU at h
  repeat (split at h)
  all_goals cases h

theorem NoEnv.subU (a b : Nat) : NoEnv (Blink.subU a b) := by
  intro w l s h
  unfold Blink.subU at h
  repeat (split at h)
  all_goals cases h

theorem NoEnv.baseDealloc (p : Nat) (l : Layout) : NoEnv (Blink.baseDealloc p l) := by
  intro w l s h
  unfold Blink.baseDealloc at h
  repeat (split at h)
  all_goals cases h

theorem NoEnv.chunkReset (c : Nat) : NoEnv (Blink.chunkReset c) :=
  .bind (.loadWord _) fun _ => .bind (.bind (.loadWord _) fun _ => .bind (.addU _ _) fun _ => .subU _ _) fun _ => .bind (.subU _ _) fun _ => .bind (.storeWord _ _) fun _ =>
    .bind (.storeWord _ _) fun _ => .bind (.loadWord _) fun _ => .bind (.storeWord _ _) fun _ => .pure _

theorem NoEnv.freeChain (n : Nat) : ∀ p, NoEnv (Blink.freeChain n p) := by
  induction n with
  | zero => intro p; cases p <;> nofun
  | succ n ih =>
    intro p
    cases p with
    | zero => nofun
    | succ p =>
      exact .bind (.bind (.loadWord _) fun _ => .bind (.loadWord _) fun _ => .bind (.subU _ _) fun _ => .bind (.baseDealloc _ _) fun _ => .pure _)
        fun _ => ih _

theorem NoEnv.arenaReset (root : Nat) (k : Bool) : NoEnv (Blink.arenaReset root k) := by
  unfold Blink.arenaReset
  split
  · split
    · exact .pure _
    · exact .bind (.chunkReset _) fun _ => .bind (by intro w l s h; cases h) fun _ => .bind (.freeChain _ _) fun _ => .pure _
  · exact .bind (by intro w l s h; cases h) fun _ => .bind (.freeChain _ _) fun _ => .pure _

/-- Nobody is inside: the `SyncBlinkAlloc` can be reset, and everything it does is seen in the world it has to itself. -/
theorem GDInv.sreset {x0 x : GPS} {tr K O D o v f K1 tr1} (h0 : GPStart x0) (h : GDInv x0 tr x K O D o v f K1 tr1) (hq : ∀ t, K.busy t = none)
    (hpq : ∀ t, K.pbusy t = none) {a : Act} (ha : a = .resetUnchecked ∨ a = .resetFinal) :
    ∃ s' v', sstep x.g.s a = .ok (some (none, s')) ∧ sstep { x.g.s with w := v } a = .ok (some (none, { s' with w := v' })) ∧
      Priv (D ++ O) x.g.s.w.mem s'.w v' ∧ ∃ s0 KS, SReach s0 { x.g.s with w := v } KS ∧ s0.w.held = [] ∧ ∀ t, KS.busy t = none := by
  obtain ⟨P, Z, hR, ht⟩ := (h.reach h0).inv
  have hq1 : ∀ t, K1.busy t = none := fun t => h.same.idle (hq t)
  have hpq1 : ∀ t, K1.pbusy t = none := fun t => by rw [h.same.pbusy]; exact hpq t
  obtain ⟨_, q2, _, _⟩ := ht.quiet hq1
  obtain ⟨KS, cs, pend, hI⟩ := hR.inv
  have hkb : ∀ t, KS.busy t = none := by
    intro t
    cases hk : KS.busy t with
    | none => rfl
    | some q =>
      rcases hI.outside.mpr (by rw [hk]; simp : KS.busy t ≠ none) with h1 | h1
      · exact absurd (q2 t) h1
      · exact absurd (by rw [ht.pbusy]; exact hpq1 t) h1
  have hS : SReach (x0.alone o).ps.s { x.g.s with w := v } KS := hI.reach
  have hv : ∃ s1, sstep { x.g.s with w := v } a = .ok (some (none, s1)) := by
    rcases ha with rfl | rfl
    · obtain ⟨s1, h1, _⟩ := C59_reset hS hkb (a := .resetUnchecked) (.inr rfl)
      exact ⟨s1, h1⟩
    · obtain ⟨s1, h1, _⟩ := C59_reset_final hS hkb
      exact ⟨s1, h1⟩
  obtain ⟨s1, hv⟩ := hv
  have hr := sstep_rel h.priv (a := a) (by rintro y b rfl; rcases ha with ha | ha <;> cases ha)
  rcases hr.1 _ hv with ⟨p, h1, h2⟩ | ⟨l, sl, h1, _⟩
  · rcases h2 with ⟨_, h2⟩ | ⟨r, s', v', rfl, h2, h3⟩
    · cases h2
    · injection h2 with h2
      injection h2 with h2 h4
      subst h2 h4
      exact ⟨s', v', h1, hv, h3, _, KS, hS, rfl, hkb⟩
  · exfalso
    have hn : ∀ k, resetStep x.g.s k ≠ .error (.env l sl) := by
      intro k he
      unfold resetStep at he
      cases hx : arenaReset x.g.s.root k x.g.s.w with
      | ok p => rw [ebind_ok' hx] at he; cases he
      | error e => rw [ebind_err' hx] at he; cases he; exact NoEnv.arenaReset _ _ _ _ _ hx
    rcases ha with rfl | rfl
    · simp only [sstep] at h1
      split at h1
      · exact hn _ h1
      · cases h1
    · exact hn _ h1

/-- C86: the mode is the one selected last. -/
theorem C86_mode {x0 x : GPS} {K : GPBook} {O : List BaseBlk} (h : GDReach x0 x K O) : x.g.enabled = K.blinkMode := by
  obtain ⟨tr, D, o, v, f, K1, tr1, hi⟩ := h.inv
  exact hi.mode h.1

/-- C86: at any time the memory obtained from the underlying allocator and not given back is exactly: what the `SyncBlinkAlloc` obtained for itself
and its proxies, what was obtained directly, and what others hold. Blocks obtained directly that the program has are among the second, and are all
of it while nobody is inside a call. Every block was given back at most once, with a layout that fits. -/
theorem C86_held {x0 x : GPS} {K : GPBook} {O : List BaseBlk} (h : GDReach x0 x K O) :
    x.g.s.w.held.Perm (openBlocks x.g.s.w.log ++ openBlocks x.g.dlog ++ O) ∧
    (∀ b ∈ K.direct, ∃ d ∈ openBlocks x.g.dlog, b = granted d.addr d.req) ∧
    ((∀ t, K.busy t = none) → K.direct.Perm ((openBlocks x.g.dlog).map fun d => granted d.addr d.req)) ∧
    FreesOK x.g.dlog ∧ FreesOK x.g.s.w.log := by
  obtain ⟨tr, D, o, v, f, K1, tr1, hi⟩ := h.inv
  obtain ⟨P, Z, hR, ht⟩ := (hi.reach h.1).inv
  obtain ⟨KS, cs, pend, hI⟩ := hR.inv
  have hS : SReach (x0.alone o).ps.s { x.g.s with w := v } KS := hI.reach
  refine ⟨?_, ?_, ?_, hi.dlg.2, ?_⟩
  · rw [hi.dlg.1, hi.priv.log]
    obtain ⟨cs', B, hS'⟩ := hS.inv
    have hp : v.held.Perm (openBlocks v.log) := by
      rw [hS'.log.1]
      have := hS'.arena.perm
      rw [show (x0.alone o).ps.s.w.held = [] from rfl, List.append_nil] at this
      exact this
    rw [List.append_assoc]
    exact hi.priv.held.trans (hp.append_right _)
  · intro b hb
    rw [hi.dlg.1]
    exact hi.direct_mem hb
  · intro hq
    rw [hi.dlg.1]
    exact (hi.quiet h.1 hq).2.2
  · rw [hi.priv.log]
    exact (C59_frees_fit hS).1

/-- What is kept when chunks are given back. -/
theorem GDInv.kept {x0 x : GPS} {tr K O D o v f K1 tr1} (h : GDInv x0 tr x K O D o v f K1 tr1) {w' v' : World} (hp : Priv (D ++ O) x.g.s.w.mem w' v') :
    (∀ b ∈ K.direct, ∀ y, b.Has y → w'.mem y = x.g.s.w.mem y) ∧ ∀ b ∈ O, ∀ y, b.Holds y → w'.mem y = x.g.s.w.mem y := by
  refine ⟨fun b hb y hy => ?_, fun b hb y hy => hp.oth b (List.mem_append_right _ hb) y hy⟩
  obtain ⟨d, hd, rfl⟩ := h.direct_mem hb
  exact hp.oth d (List.mem_append_left _ hd) y ((h.good d hd).holds hy)

/-- C86: `reset` and `direct_mode`, called with nobody inside a call, panic, and do nothing else, exactly if this is a debug build and some block
obtained in blink mode is outstanding. Otherwise they give back all chunks of the `SyncBlinkAlloc` but the newest and nothing else; memory obtained
directly and memory of others stays as it is; `direct_mode` ends blink mode, `reset` does not. -/
theorem C86_resets {x0 x : GPS} {K : GPBook} {O : List BaseBlk} {a : GAct} (h : GDReach x0 x K O) (hq : ∀ t, K.busy t = none)
    (hpq : ∀ t, K.pbusy t = none) (ha : a = .reset ∨ a = .directMode) :
    (gpstep x (.glob a) = .ok (some (some (.glob .panicked), x)) ∧ x0.g.s.w.debug = true ∧ K.blink ≠ []) ∨
    (¬ (x0.g.s.w.debug = true ∧ K.blink ≠ []) ∧ ∃ x', gpstep x (.glob a) = .ok (some (some (.glob .unit), x')) ∧
      x'.g.s.w.log = (((openBlocks x.g.s.w.log).drop 1).map fun b => .dealloc b.addr ⟨b.len, 8⟩).reverse ++ x.g.s.w.log ∧
      openBlocks x'.g.s.w.log = (openBlocks x.g.s.w.log).take 1 ∧ x'.g.dlog = x.g.dlog ∧
      x'.g.s.w.held.Perm ((openBlocks x.g.s.w.log).take 1 ++ openBlocks x.g.dlog ++ O) ∧
      (∀ b ∈ K.direct, ∀ y, b.Has y → x'.g.s.w.mem y = x.g.s.w.mem y) ∧ (∀ b ∈ O, ∀ y, b.Holds y → x'.g.s.w.mem y = x.g.s.w.mem y) ∧
      x'.g.enabled = (if a = .directMode then false else x.g.enabled) ∧ x'.g.allocations = x.g.allocations) := by
  have hcnt := fun hd => C86_counter h hd hq
  obtain ⟨tr, D, o, v, f, K1, tr1, hi⟩ := h.inv
  have hdbg := hi.debug h.1
  have hiff : (x.g.s.w.debug = true ∧ x.g.allocations ≠ 0) ↔ (x0.g.s.w.debug = true ∧ K.blink ≠ []) := by
    rw [hdbg]
    refine and_congr_right fun hd => ?_
    rw [hcnt hd]
    cases K.blink <;> simp
  by_cases hc : x.g.s.w.debug = true ∧ x.g.allocations ≠ 0
  · left
    have he : x.g.reset = .ok (some (some .panicked, x.g)) := by unfold GSS.reset; rw [if_pos hc]; rfl
    refine ⟨?_, hiff.mp hc⟩
    rcases ha with rfl | rfl
    · exact gpstep_ok (show gsstep x.g .reset = _ from he)
    · exact gpstep_ok (show gsstep x.g .directMode = .ok (some (some .panicked, x.g)) by simp only [gsstep]; rw [ebind_ok' he]; rfl)
  · right
    refine ⟨fun h' => hc (hiff.mpr h'), ?_⟩
    obtain ⟨s', v', hs, hv, hp, s0, KS, hS, h00, hkb⟩ := hi.sreset h.1 hq hpq (a := .resetUnchecked) (.inl rfl)
    obtain ⟨s1, e1, _, e2, e3, e4⟩ := C59_reset hS hkb (a := .resetUnchecked) (.inr rfl)
    rw [hv] at e1
    injection e1 with e1
    injection e1 with e1
    injection e1 with _ e1
    subst e1
    obtain ⟨k1, k2⟩ := hi.kept hp
    have he : x.g.reset = .ok (some (some .unit, { x.g with s := s' })) := by unfold GSS.reset; rw [if_neg hc, ebind_ok' hs]; rfl
    rw [h00, List.append_nil] at e4
    simp only at e2 e3 e4
    have l1 : s'.w.log = (((openBlocks x.g.s.w.log).drop 1).map fun b => .dealloc b.addr ⟨b.len, 8⟩).reverse ++ x.g.s.w.log := by
      rw [hp.log, e2, hi.priv.log]
    have l2 : openBlocks s'.w.log = (openBlocks x.g.s.w.log).take 1 := by rw [hp.log, e3, hi.priv.log]
    have l3 : s'.w.held.Perm ((openBlocks x.g.s.w.log).take 1 ++ openBlocks x.g.dlog ++ O) := by
      rw [hi.dlg.1, hi.priv.log, List.append_assoc]
      exact hp.held.trans (e4.append_right _)
    rcases ha with rfl | rfl
    · exact ⟨_, gpstep_ok (show gsstep x.g .reset = _ from he), l1, l2, rfl, l3, k1, k2, by rw [if_neg (by simp)], rfl⟩
    · exact ⟨_, gpstep_ok (show gsstep x.g .directMode = .ok (some (some .unit, { x.g with s := s', enabled := false })) by
        simp only [gsstep]; rw [ebind_ok' he]; rfl), l1, l2, rfl, l3, k1, k2, by rw [if_pos rfl], rfl⟩

/-- C86: when the global allocator goes out of scope (nobody inside), everything obtained for blink mode and for proxies is given back; blocks
obtained directly and not deallocated stay, and so does what others hold. -/
theorem C86_drop {x0 x : GPS} {K : GPBook} {O : List BaseBlk} (h : GDReach x0 x K O) (hq : ∀ t, K.busy t = none) (hpq : ∀ t, K.pbusy t = none) :
    ∃ g', x.g.drop = .ok (some g') ∧ openBlocks g'.s.w.log = [] ∧ g'.s.w.held.Perm (openBlocks x.g.dlog ++ O) ∧
      (∀ b ∈ K.direct, ∀ y, b.Has y → g'.s.w.mem y = x.g.s.w.mem y) ∧ ∀ b ∈ O, ∀ y, b.Holds y → g'.s.w.mem y = x.g.s.w.mem y := by
  obtain ⟨tr, D, o, v, f, K1, tr1, hi⟩ := h.inv
  obtain ⟨s', v', hs, hv, hp, s0, KS, hS, h00, hkb⟩ := hi.sreset h.1 hq hpq (a := .resetFinal) (.inr rfl)
  obtain ⟨s1, e1, _, _, e2, e3, e4⟩ := C59_reset_final hS hkb
  rw [hv] at e1
  injection e1 with e1
  injection e1 with e1
  injection e1 with _ e1
  subst e1
  simp only at e3 e4
  obtain ⟨k1, k2⟩ := hi.kept hp
  refine ⟨{ x.g with s := s' }, by unfold GSS.drop; rw [ebind_ok' hs]; rfl, by rw [hp.log]; exact e3, ?_, k1, k2⟩
  rw [h00] at e4
  rw [hi.dlg.1]
  have := hp.held.trans (e4.append_right (D ++ O))
  rwa [List.nil_append] at this

/-! ### Non-vacuity -/

/-- A proxy makes the `SyncBlinkAlloc` obtain two chunks; thread 0 obtained a block directly before blink mode; others hold blocks. -/
def gdresetActs : List (GPAct ⊕ EnvAct) :=
  ([.proxy (.spawn 1 0), .proxy (.allocate 1 ⟨40, 8⟩)] ++ gppgoes 1 5 ++ [.glob (.call 0 (.alloc ⟨24, 8⟩))] ++ gpgoes 0 1 : List GPAct).map .inl ++
  [.inr (.take ⟨400000, 64, ⟨64, 8⟩⟩ (.raw 1)), .inl (.glob .blinkMode), .inl (.proxy (.allocate 1 ⟨3000, 8⟩))] ++ (gppgoes 1 7).map .inl

/-- What the demonstrations end in: nobody is inside a call. -/
theorem gdquiet {x0 x : GPS} {K : GPBook} {O : List BaseBlk} {ts : List Nat} (h : GDReach x0 x K O) (hfine : K.Fine ts) (h1 : ts.all (fun t => (K.busy t).isNone) = true)
    (h2 : (List.range 8).all (fun t => (K.pbusy t).isNone) = true) : (∀ t, K.busy t = none) ∧ ∀ t, K.pbusy t = none := by
  simp only [List.all_eq_true, Option.isNone_iff_eq_none] at h1 h2
  refine ⟨fun t => ?_, fun t => ?_⟩
  · by_cases ht : t ∈ ts
    · exact h1 t ht
    · exact hfine.1 t ht
  · by_cases ht : t < 8
    · exact h2 t (List.mem_range.mpr ht)
    · have hl := (hfine.2 t (by omega)).1
      obtain ⟨tr, D, o, v, f, K1, tr1, hi⟩ := h.inv
      obtain ⟨P, Z, hR, hT⟩ := (hi.reach h.1).inv
      obtain ⟨KS, cs, pend, hI⟩ := hR.inv
      have hx := hI.px t
      rw [hT.live, hT.pbusy, hi.same.live, hi.same.pbusy, show K.live t = false from hl] at hx
      generalize K.pbusy t = pb at hx ⊢
      generalize (x.veil v f).ps.px t = a1, P.led t = a2, P.direct.busy t = a3, KS.busy t = a4, cs t = a5, pend t = a6 at hx
      cases hx
      rfl

/-- For `C86_mode`, `C86_held`, `C86_resets` (second case), `C86_drop`: nobody is inside a call, no block obtained in blink mode is outstanding, two chunks
exist, a block obtained directly and blocks of others exist. -/
example : ∃ x0 x K O, GDReach x0 x K O ∧ (∀ t, K.busy t = none) ∧ (∀ t, K.pbusy t = none) ∧ x0.g.s.w.debug = true ∧ K.blink = [] ∧
    K.blinkMode = true ∧ (openBlocks x.g.s.w.log).map (fun b => b.len) = [8192, 512] ∧ K.direct.length = 1 ∧ O.length = 2 := by
  obtain ⟨tr, x, K, O, ts, h0, hr, hfine, hf⟩ := of_gddemoAt (sizes := [512, 24, 8192]) (debug := true) (as := gdresetActs)
    (f := fun _ x K O ts => ts.all (fun t => (K.busy t).isNone) && (List.range 8).all (fun t => (K.pbusy t).isNone) &&
      decide (K.blink = []) && K.blinkMode && decide ((openBlocks x.g.s.w.log).map (fun b => b.len) = [8192, 512]) &&
      decide (K.direct.length = 1) && decide (O.length = 2)) (by decide +kernel)
  simp only [Bool.and_eq_true, decide_eq_true_eq] at hf
  obtain ⟨⟨⟨⟨⟨⟨h1, h2⟩, h3⟩, h4⟩, h5⟩, h6⟩, h7⟩ := hf
  obtain ⟨q1, q2⟩ := gdquiet ⟨h0, tr, hr⟩ hfine h1 h2
  exact ⟨_, x, K, O, ⟨h0, tr, hr⟩, q1, q2, rfl, h3, h4, h5, h6, h7⟩

/-- For `C86_resets` (first case): a debug build, nobody is inside a call, a block obtained in blink mode is outstanding. -/
example : ∃ x0 x K O, GDReach x0 x K O ∧ (∀ t, K.busy t = none) ∧ (∀ t, K.pbusy t = none) ∧ x0.g.s.w.debug = true ∧ K.blink.length = 1 ∧
    K.direct.length = 2 := by
  obtain ⟨tr, x, K, O, ts, h0, hr, hfine, hf⟩ := of_gddemoAt (sizes := [512, 24, 24, 4096]) (debug := true)
    (as := gddemoEnd ++ (gppgoes 1 5).map .inl)
    (f := fun _ _ K _ ts => ts.all (fun t => (K.busy t).isNone) && (List.range 8).all (fun t => (K.pbusy t).isNone) &&
      decide (K.blink.length = 1) && decide (K.direct.length = 2)) (by decide +kernel)
  simp only [Bool.and_eq_true, decide_eq_true_eq] at hf
  obtain ⟨⟨⟨h1, h2⟩, h3⟩, h4⟩ := hf
  obtain ⟨q1, q2⟩ := gdquiet ⟨h0, tr, hr⟩ hfine h1 h2
  exact ⟨_, x, K, O, ⟨h0, tr, hr⟩, q1, q2, rfl, h3, h4⟩

end Blink
