import Verif.Proofs.GlobalBare
import Verif.Proofs.EnvRun
/-
  Histories of a global allocator used in both modes and through proxies.
-/
namespace Blink

theorem GPStart.alone {x : GPS} {o} (h : GPStart x) : GPStart (x.alone o) :=
  ⟨⟨h.glob.enabled, h.glob.zero, h.glob.blink.alone, h.glob.dlog, h.glob.pcs⟩, h.top, h.hist, h.view, h.px⟩

theorem PReach.top_eq {p0 ps K} (h : PReach p0 ps K) : ps.s.w.top = p0.s.w.top := by
  obtain ⟨_, _, _, hi⟩ := h.inv
  obtain ⟨_, _, hs⟩ := hi.reach.inv
  exact hs.top

/-- What direct mode looks like, in another state that looks the same. -/
theorem Bare.frame {g g' : GSS} {K K' : GPBook} {D : List BaseBlk} (h : Bare g K D) (hm : K.blinkMode = false) (hg : ∀ d ∈ D, d.Good)
    (hpc : g'.pcs = g.pcs) (hdb : g'.s.w.debug = g.s.w.debug) (hbz : K'.busy = K.busy) (hsn : K'.snap = K.snap) (hdr : K'.direct = K.direct)
    (hmd : K'.blinkMode = K.blinkMode) (hmem : ∀ d ∈ D, ∀ y, d.Holds y → g'.s.w.mem y = g.s.w.mem y) : Bare g' K' D := by
  have hK : K'.bare = K.bare := by
    obtain ⟨⟨⟨_, _, _⟩, _, _⟩, _, _, _⟩ := K
    obtain ⟨⟨⟨_, _, _⟩, _, _⟩, _, _, _⟩ := K'
    simp only at hbz hsn hdr hmd
    subst hbz hsn hdr hmd
    rfl
  refine ⟨by rw [hpc, hdb, hK]; exact h.fam, fun t => ?_⟩
  rw [hsn, hbz, hpc]
  refine (h.thr t).frame (fun b hb => by rw [(h.thr t).no_x] at hb; cases hb) fun _ b hb y hy => ?_
  obtain ⟨ts, _, h2, _, h4, _⟩ := h.fam
  have hmf : ¬ K.bare.blinkMode = true := by rw [show K.bare.blinkMode = false from hm]; simp
  rw [if_neg hmf] at h4
  have ht : t ∈ ts := by
    by_cases ht : t ∈ ts
    · exact ht
    · rw [show K.busy t = none from (h2 t ht).1] at hb; cases hb
  have hb' : b ∈ D.map BaseBlk.own := h4.mem_iff.mp (List.mem_append_right _ (List.mem_flatMap.mpr ⟨t, ht, hb⟩))
  obtain ⟨d, hd, rfl⟩ := List.mem_map.mp hb'
  refine hmem d hd y ?_
  obtain ⟨h5, h6⟩ := hy
  have := (hg d hd).len
  exact ⟨h5, by simp only [BaseBlk.own, granted] at h5 h6; omega⟩

/-- With nobody inside. -/
theorem Bare.quiet {g : GSS} {K : GPBook} {D : List BaseBlk} (hq : ∀ t, K.busy t = none) (hp : ∀ t, g.pcs t = .idle)
    (hd : K.direct.Perm (D.map BaseBlk.own)) : Bare g K D :=
  ⟨.of_idle hq hp (.refl _) hd (by show 0 = if _ then 0 % USIZE else 0; split <;> simp), fun t => by rw [hq t, hp t]; exact .idle⟩

/-- The invariant: `D` are the blocks obtained directly, `x.veil v f` is what the `SyncBlinkAlloc` and its proxies see. -/
structure GDInv (x0 : GPS) (tr : List (GPAct × Option GPResp)) (x : GPS) (K : GPBook) (O D : List BaseBlk) (o : Nat → Option Slice) (v : World)
    (f : Nat → GPc) (K1 : GPBook) (tr1 : List (GPAct × Option GPResp)) : Prop where
  run : GPRun (x0.alone o) GPBook.empty tr1 (x.veil v f) K1
  less : Less tr tr1
  same : SameBlink K K1
  priv : Priv (D ++ O) x.g.s.w.mem x.g.s.w v
  good : ∀ d ∈ D, d.Good
  dlg : DLog x.g.dlog D
  one : ∀ t, K.busy t ≠ none → K.pbusy t = none
  pcs : K.blinkMode = true → f = x.g.pcs
  blk : K.blinkMode = true → K.direct.Perm (D.map BaseBlk.own)
  dir : K.blinkMode = false → Bare x.g K D
  is : K.blinkMode = true → ∀ t p l n b, K.busy t = some (.realloc p l n, some b) → b.Is p l ∧ b.size ≤ b.len

theorem GDInv.start {x0 : GPS} (h0 : GPStart x0) :
    GDInv x0 [] x0 GPBook.empty x0.g.s.w.held [] x0.g.s.w.oracle (x0.g.s.w.alone x0.g.s.w.oracle) x0.g.pcs GPBook.empty [] where
  run := by
    have : x0.veil (x0.g.s.w.alone x0.g.s.w.oracle) x0.g.pcs = x0.alone x0.g.s.w.oracle := by
      unfold GPS.veil GPS.alone
      rw [← h0.glob.dlog]
    rw [this]
    exact .nil
  less := .nil
  same := ⟨rfl, rfl, rfl, rfl, rfl, rfl, rfl, fun h => nomatch h⟩
  priv := Priv.start h0.glob.blink.world
  good := by intro d hd; cases hd
  dlg := by rw [h0.glob.dlog]; exact ⟨rfl, trivial⟩
  one := fun _ h => absurd rfl h
  pcs := fun _ => rfl
  blk := fun _ => .refl _
  dir := fun _ => .quiet (fun _ => rfl) h0.glob.pcs (.refl _)
  is := fun h => nomatch h

section
variable {x0 x : GPS} {tr K O D o v f K1 tr1}

theorem GDInv.reach (h0 : GPStart x0) (h : GDInv x0 tr x K O D o v f K1 tr1) : GPReach (x0.alone o) (x.veil v f) K1 := ⟨h0.alone, tr1, h.run⟩

theorem GDInv.mode (h0 : GPStart x0) (h : GDInv x0 tr x K O D o v f K1 tr1) : x.g.enabled = K.blinkMode := by
  obtain ⟨P, Z, _, ht⟩ := (h.reach h0).inv
  exact ht.mode.trans h.same.mode

theorem GDInv.fidle (h0 : GPStart x0) (h : GDInv x0 tr x K O D o v f K1 tr1) {t : Nat} (hb : K1.busy t = none) : f t = .idle := by
  obtain ⟨P, Z, _, ht⟩ := (h.reach h0).inv
  exact (ht.busy_none hb).1

theorem GDInv.top (h0 : GPStart x0) (h : GDInv x0 tr x K O D o v f K1 tr1) : x.g.s.w.top ≤ HUGE := by
  obtain ⟨P, Z, hR, _⟩ := (h.reach h0).inv
  rw [h.priv.top]
  exact Nat.le_trans (Nat.le_of_eq hR.top_eq) h0.top

theorem GDInv.debug (h0 : GPStart x0) (h : GDInv x0 tr x K O D o v f K1 tr1) : x.g.s.w.debug = x0.g.s.w.debug := by
  obtain ⟨P, Z, hR, _⟩ := (h.reach h0).inv
  rw [h.priv.debug]
  exact hR.debug

theorem GDInv.gs (h0 : GPStart x0) (h : GDInv x0 tr x K O D o v f K1 tr1) (hm : K.blinkMode = false) :
    GSInv (x.g.bare.before (v.held ++ O)) x.g.bare [] D K.bare Book.empty (fun _ => []) := by
  refine (h.dir hm).gs hm h.priv.ok (h.priv.held.trans ?_) h.good h.dlg (h.top h0)
  rw [← List.append_assoc, ← List.append_assoc]
  exact List.perm_append_comm.append_right O

/-- With nobody inside. -/
theorem GDInv.quiet (h0 : GPStart x0) (h : GDInv x0 tr x K O D o v f K1 tr1) (hq : ∀ t, K.busy t = none) :
    (∀ t, x.g.pcs t = .idle) ∧ (∀ t, f t = .idle) ∧ K.direct.Perm (D.map BaseBlk.own) := by
  have hf : ∀ t, f t = .idle := fun t => h.fidle h0 (h.same.idle (hq t))
  cases hm : K.blinkMode with
  | true => exact ⟨fun t => by rw [← h.pcs hm]; exact hf t, hf, h.blk hm⟩
  | false =>
    have hp : ∀ t, x.g.pcs t = .idle := fun t => by
      have := (h.dir hm).thr t
      rw [hq t] at this
      exact this.of_none.1
    exact ⟨hp, hf, ((h.dir hm).fam.idle hq hp).2.1⟩

theorem GDInv.direct_mem (h : GDInv x0 tr x K O D o v f K1 tr1) {b : Owned} (hb : b ∈ K.direct) : ∃ d ∈ D, b = d.own := by
  have : b ∈ D.map BaseBlk.own := by
    cases hm : K.blinkMode with
    | true => exact (h.blk hm).mem_iff.mp hb
    | false =>
      obtain ⟨ts, _, _, _, h4, _⟩ := (h.dir hm).fam
      exact h4.mem_iff.mp (List.mem_append_left _ hb)
  obtain ⟨d, hd, rfl⟩ := List.mem_map.mp this
  exact ⟨d, hd, rfl⟩

theorem BaseBlk.Good.holds {d : BaseBlk} (hg : d.Good) {y : Nat} (hy : d.own.Has y) : d.Holds y := by
  obtain ⟨h5, h6⟩ := hy
  have := hg.len
  exact ⟨h5, by simp only [BaseBlk.own, granted] at h5 h6; omega⟩

/-- Blocks of blink mode and of proxies lie in memory of the `SyncBlinkAlloc`. -/
theorem GDInv.within (h0 : GPStart x0) (h : GDInv x0 tr x K O D o v f K1 tr1) {b : Owned} (hb : b ∈ K.blink ∨ ∃ i, b ∈ K.blocks i) :
    ∃ B ∈ v.held, ∀ y, b.Has y → B.Holds y := by
  have hb1 : b ∈ K1.blink ∨ ∃ i, b ∈ K1.blocks i := by
    rw [h.same.blink]
    unfold GPBook.blocks
    rw [h.same.px]
    exact hb
  obtain ⟨_, _, _, B, _, hB, h1, h2⟩ := C79_memory (h.reach h0) hb1
  exact ⟨B, hB, fun y ⟨h3, h4⟩ => ⟨by omega, by omega⟩⟩

theorem GDInv.bytes (h0 : GPStart x0) (h : GDInv x0 tr x K O D o v f K1 tr1) {b : Owned} (hb : b ∈ K.blink ∨ ∃ i, b ∈ K.blocks i) {y : Nat}
    (hy : b.Has y) : x.g.s.w.mem y = v.mem y := by
  obtain ⟨B, hB, h1⟩ := h.within h0 hb
  exact h.priv.mem B hB y (h1 y hy)

/-! ### What is wanted of one step -/

/-- What may go wrong in a step. -/
def GDFault (x : GPS) (K : GPBook) (O : List BaseBlk) (a : GPAct) (e : Fault) : Prop :=
  GDBad x O a e ∨ ∃ ga, a = .glob ga ∧ (GSBad x.g K.toGSBook ga e ∨ ∃ t ch p l n b, ga = .go t ch ∧ K.blinkMode = false ∧
    K.busy t = some (.realloc p l n, b) ∧ n ≠ l.size ∧ n + l.align ≤ ISIZE)

/-- What a step does, apart from the invariant. -/
structure GDRes (K : GPBook) (O : List BaseBlk) (a : GPAct) (r : Option GPResp) (x x' : GPS) (K' : GPBook) : Prop where
  keep : ∀ b y, b.Has y → (∀ v, a ≠ .glob (.write y v)) →
    (b ∈ K.direct ∨ (b ∈ K.blink ∧ b ∈ K'.blink ∧ ∀ a', a = .glob a' → a'.resets = false) ∨
      ∃ i, b ∈ K.blocks i ∧ b ∈ K'.blocks i ∧ a ≠ .proxy (.reset i) ∧ a ≠ .proxy (.resetUnchecked i) ∧ a ≠ .proxy (.drop i)) →
    x'.g.s.w.mem y = x.g.s.w.mem y
  oth : ∀ b ∈ O, ∀ y, b.Holds y → x'.g.s.w.mem y = x.g.s.w.mem y
  ret : ∀ t ch c ob q, a = .glob (.go t ch) → r = some (.glob q) → K.busy t = some (c, ob) → Returned x'.g.s.w.mem (K.snap t) c ob q

/-- Reasons why a step cannot be made. -/
def GDStuck (x : GPS) (a : GPAct) : Prop :=
  (∃ t ch, a = .glob (.go t ch) ∨ a = .proxy (.shared (.go t ch))) ∨ ∃ i k, a = .proxy (.spawn i k) ∧ x.hist.getD k (x.hist.headD 0) < x.view i

/-- Everything wanted of one step. -/
def GDGood (x0 : GPS) (tr : List (GPAct × Option GPResp)) (x : GPS) (K : GPBook) (O D : List BaseBlk) (a : GPAct)
    (X : Except Fault (Option (Option GPResp × GPS))) : Prop :=
  (∃ e, X = .error e ∧ GDFault x K (D ++ O) a e) ∨ (X = .ok none ∧ GDStuck x a) ∨
  ∃ r x', X = .ok (some (r, x')) ∧ (∃ K', GPAfter x.g.s.w.mem K a r K') ∧
    ∀ K', GPAfter x.g.s.w.mem K a r K' → GDRes K O a r x x' K' ∧
      ∃ D' o' v' f' K1' tr1', GDInv x0 (tr ++ [(a, r)]) x' K' O D' o' v' f' K1' tr1'

/-! ### Direct calls -/

theorem GSAfter.unbare {m : Nat → Byte} {K : GPBook} {a : GAct} {r} {G : GSBook} (hm : K.blinkMode = false) {g : GSS} (hb : BareAct g a)
    (h : GSAfter m K.bare a r G) : ∃ G', GSAfter m K.toGSBook a r G' := by
  have hmf : ¬ K.blinkMode = true := by rw [hm]; simp
  have cur : K.bare.cur = K.cur := by unfold GBook.cur; rw [if_neg hmf, if_neg (show ¬ K.bare.blinkMode = true from hmf)]; rfl
  cases h with
  | alloc => exact ⟨_, .alloc⟩
  | allocZeroed => exact ⟨_, .allocZeroed⟩
  | dealloc ho hi => exact ⟨_, .dealloc (by rw [← cur]; exact ho) hi⟩
  | realloc ho hi => exact ⟨_, .realloc (by rw [← cur]; exact ho) hi⟩
  | inside => exact ⟨_, .inside⟩
  | ret hb' => exact ⟨_, .ret hb'⟩
  | write => exact ⟨_, .write⟩
  | reset => cases hb
  | resetPanic => cases hb
  | blinkMode => cases hb
  | directMode => cases hb
  | directPanic => cases hb

theorem BareAct.noReset {g : GSS} {a : GAct} (h : BareAct g a) : a.resets = false := by cases h <;> rfl

theorem BareAct.mayBypass {g : GSS} {a : GAct} (h : BareAct g a) : a.MayBypass := by cases h <;> constructor

theorem GDInv.skip (h0 : GPStart x0) (h : GDInv x0 tr x K O D o v f K1 tr1) {a : GAct} (hm : K.blinkMode = false) (hb : BareAct x.g a)
    (hl : GSLegal K.bare a) (hp : ∀ t c, a = .call t c → K.pbusy t = none) : GDGood x0 tr x K O D (.glob a) (gpstep x (.glob a)) := by
  have hg := h.gs h0 hm
  rcases gsstep_bare ((h.mode h0).trans hm) hb with ⟨e, h1, h2⟩ | ⟨h1, _⟩ | ⟨r, w1, d, f1, h1, h2, h3⟩
  · refine .inl ⟨e, gpstep_err h1, .inr ⟨a, rfl, ?_⟩⟩
    by_cases hc : GSCalm K.bare a
    · rcases hg.step hl hc with ⟨e', hb', he⟩ | he | ⟨_, _, he, _⟩
      · rw [h2] at he; cases he; exact .inl hb'
      · rw [h2] at he; cases he
      · rw [h2] at he; cases he
    · refine .inr ?_
      cases a with
      | go t ch =>
        refine Classical.byContradiction fun hno => hc (.inr fun p l n b hbz => Classical.byContradiction fun hx => hno ?_)
        exact ⟨t, ch, p, l, n, b, rfl, hm, hbz, fun h => hx (.inl h), Nat.le_of_not_lt fun h => hx (.inr h)⟩
      | _ => exact absurd trivial hc
  · refine .inr (.inl ⟨gpstep_none h1, ?_⟩)
    cases hb with
    | @call t c =>
      exfalso
      have hbz : K.bare.busy t = none := by cases hl <;> assumption
      have hen : x.g.enabled = false := (h.mode h0).trans hm
      have hne : ¬ x.g.enabled = true := by rw [hen]; simp
      rw [show gsstep x.g (.call t c) = x.g.begin t c from if_pos (hg.busy_none hbz).1] at h1
      unfold GSS.begin at h1
      cases c with
      | alloc => dsimp only at h1; rw [if_neg hne] at h1; cases h1
      | allocZeroed => dsimp only at h1; rw [if_neg hne] at h1; cases h1
      | dealloc =>
        dsimp only at h1
        split at h1
        · cases h1
        · cases h1
      | realloc =>
        dsimp only at h1
        split at h1
        · cases h1
        · rw [if_neg hne] at h1; cases h1
    | write => cases h1
    | idle => exact .inl ⟨_, _, .inl rfl⟩
    | direct => exact .inl ⟨_, _, .inl rfl⟩
    | fin => exact .inl ⟨_, _, .inl rfl⟩
  · have hG1 : ∃ G1, GSAfter x.g.s.w.mem K.bare a r G1 := by
      rcases hg.step hl (hg.calm h2) with ⟨_, _, he⟩ | he | ⟨_, _, he, _, hG, _⟩
      · rw [h2] at he; cases he
      · rw [h2] at he; cases he
      · rw [h2] at he; cases he; exact hG
    obtain ⟨G1, hG1⟩ := hG1
    obtain ⟨G2, hG2⟩ := hG1.unbare hm hb
    refine .inr (.inr ⟨_, _, gpstep_ok h1, ⟨_, .glob hG2⟩, ?_⟩)
    intro K' hK'
    generalize hr : r.map GPResp.glob = r' at hK'
    cases hK' with
    | @glob _ r2 G hG =>
      cases GResp.map_inj hr
      obtain ⟨hb1, hb2, hb3, hb4⟩ := hG.bare hm hb
      obtain ⟨hres, cs', D', I', B', hi⟩ := hg.step_ok hl h2 hb1
      have hfor := hg.bareForeign hl hb h2
      obtain ⟨rfl, hbare⟩ := Bare.of (K := { K with toGSBook := G }) hi hb3
      have hforV : ∀ c ∈ v.held, ∀ y, c.Holds y → w1.mem y = x.g.s.w.mem y := fun c hc y hy => hfor c (List.mem_append_left _ hc) y hy
      have hforO : ∀ c ∈ O, ∀ y, c.Holds y → w1.mem y = x.g.s.w.mem y := fun c hc y hy => hfor c (List.mem_append_right _ hc) y hy
      refine ⟨⟨?_, hforO, ?_⟩, D', splice v.oracle (fun k => w1.oracle (w1.calls + k)) v.calls,
        v.ora (splice v.oracle (fun k => w1.oracle (w1.calls + k)) v.calls), f, K1, tr1, ?_⟩
      · intro b y hy hw hbl
        rcases hbl with hbl | ⟨hbl, _⟩ | ⟨i, hbl, _⟩
        · exact hres.keep b (List.mem_append_right _ hbl) (fun _ => hbl) y hy fun v' he => hw v' (by rw [he])
        · obtain ⟨B, hB, hin⟩ := h.within h0 (.inl hbl)
          exact hforV B hB y (hin y hy)
        · obtain ⟨B, hB, hin⟩ := h.within h0 (.inr ⟨i, hbl⟩)
          exact hforV B hB y (hin y hy)
      · intro t ch c ob q he hq hbz
        cases he
        have : r = some q := by
          cases r with
          | none => cases hq
          | some q' => injection hq with hq; injection hq with hq; rw [hq]
        exact hres.ret t ch c ob q rfl this hbz
      · refine ⟨?_, .skip h.less hb.mayBypass, ?_, ?_, hi.good, hi.dlg, ?_, fun hf => ?_, fun hf => ?_, fun _ => hbare, fun hf => ?_⟩
        · obtain ⟨g1, _, g3⟩ := h.run.ora
          exact g3 _ ((splice_agree (v := v)).weaken g1 (Nat.le_refl _))
        · refine ⟨h.same.mode.trans (hm.trans hb3.symm), h.same.blink.trans hb2.symm, h.same.direct, h.same.live, h.same.led, h.same.pbusy, ?_, ?_⟩
          · funext t
            show K1.busy t = (if G.blinkMode = true then G.busy else fun _ => none) t
            rw [if_neg (by rw [hb3]; simp), h.same.off hm]
          · intro hf
            have hf : G.blinkMode = true := hf
            rw [hb3] at hf; cases hf
        · have hper : w1.held.Perm (D' ++ (v.held ++ O)) := hi.inner.arena.perm
          refine ⟨⟨hper.trans ?_, ?_, ?_, h3.trans h.priv.log, ?_, ?_⟩, ⟨hi.inner.arena.held.top, hi.inner.arena.held.dis, hi.inner.arena.held.rng⟩,
            h.priv.pos, fun _ _ _ _ => rfl⟩
          · show (D' ++ (v.held ++ O)).Perm (v.held ++ (D' ++ O))
            rw [← List.append_assoc, ← List.append_assoc]
            exact List.perm_append_comm.append_right O
          · intro c hc y hy
            exact (hforV c hc y hy).trans (h.priv.mem c hc y hy)
          · intro k
            exact (splice_next (f := v.oracle) (g := fun k => w1.oracle (w1.calls + k)) (n := v.calls) (k := k)).symm
          · have := hi.inner.top
            exact this.trans h.priv.top
          · have := hi.dbg
            exact this.trans h.priv.debug
        · intro t ht
          rcases hb4 t ht with h4 | ⟨c, h4⟩
          · exact h.one t h4
          · exact hp t c h4
        · have hf : G.blinkMode = true := hf
          rw [hb3] at hf; cases hf
        · have hf : G.blinkMode = true := hf
          rw [hb3] at hf; cases hf
        · have hf : G.blinkMode = true := hf
          rw [hb3] at hf; cases hf

/-! ### A store into a block obtained directly, in blink mode -/

theorem GDInv.poke (h0 : GPStart x0) (h : GDInv x0 tr x K O D o v f K1 tr1) {b : Owned} {y : Nat} {c : Byte} (hm : K.blinkMode = true)
    (hb : b ∈ K.direct) (hy : b.Has y) : GDGood x0 tr x K O D (.glob (.write y c)) (gpstep x (.glob (.write y c))) := by
  obtain ⟨d, hd, rfl⟩ := h.direct_mem hb
  have hdy := (h.good d hd).holds hy
  have hne : ∀ {B : BaseBlk} {z : Nat}, B ∈ v.held ∨ B ∈ O → B.Holds z → setBytes x.g.s.w.mem y 1 (fun _ => c) z = x.g.s.w.mem z := by
    intro B z hB hz
    refine setBytes_out ?_
    have hp := h.priv.pairwise
    have hdis : B.Disjoint d := by
      rcases hB with hB | hB
      · exact h.priv.apart hB (List.mem_append_left _ hd)
      · rw [List.pairwise_append] at hp
        have hp := hp.2.1
        rw [List.pairwise_append] at hp
        exact (hp.2.2 d hd B hB).symm'
    have : z ≠ y := by rintro rfl; exact hdis.holds hz hdy
    omega
  refine .inr (.inr ⟨some (.glob .unit), _, rfl, ⟨_, .glob (r := some .unit) .write⟩, ?_⟩)
  intro K' hK'
  generalize hr : some (GPResp.glob .unit) = r' at hK'
  cases hK' with
  | @glob _ r2 G hG =>
    cases (show r2 = some .unit from GResp.map_inj (r' := some .unit) hr.symm)
    cases hG
    refine ⟨⟨?_, fun B hB z hz => hne (.inr hB) hz, by rintro _ _ _ _ _ ⟨⟩⟩, D, o, v, f, K1, tr1,
      ⟨h.run, .skip h.less .write, h.same, ⟨⟨h.priv.held, ?_, h.priv.next, h.priv.log, h.priv.top, h.priv.debug⟩,
        ⟨h.priv.ok.top, h.priv.ok.dis, h.priv.ok.rng⟩, h.priv.pos, fun _ _ _ _ => rfl⟩, h.good, h.dlg, h.one, h.pcs, h.blk,
        fun hf => (by rw [show K.blinkMode = false from hf] at hm; cases hm), h.is⟩⟩
    · intro b' z hz hw hbl
      rcases hbl with hbl | ⟨hbl, _⟩ | ⟨i, hbl, _⟩
      · show setBytes x.g.s.w.mem y 1 (fun _ => c) z = x.g.s.w.mem z
        refine setBytes_out ?_
        have : z ≠ y := by rintro rfl; exact hw c rfl
        omega
      · obtain ⟨B, hB, hin⟩ := h.within h0 (.inl hbl)
        exact hne (.inl hB) (hin z hz)
      · obtain ⟨B, hB, hin⟩ := h.within h0 (.inr ⟨i, hbl⟩)
        exact hne (.inl hB) (hin z hz)
    · intro B hB z hz
      exact (hne (.inl hB) hz).trans (h.priv.mem B hB z hz)

/-! ### Everything else -/

/-- How the books change in a step that is no direct call: the other direction. -/
theorem SameBlink.back (h : SameBlink K K1) {m m1 : Nat → Byte} {a : GPAct} {r K1'} (ha : GPAfter m1 K1 a r K1')
    (hat : ∀ a', a = .proxy a' → a'.atProxy = true)
    (hd : (∃ t c, a = .glob (.call t c)) ∨ (∃ t ch, a = .glob (.go t ch)) → K.blinkMode = true) : ∃ K', GPAfter m K a r K' := by
  cases ha with
  | proxy ha => exact ⟨_, .proxy (by rw [← h.px]; exact ha.remem (hat _ rfl) fun _ => rfl)⟩
  | @glob a r G ha =>
    cases ha with
    | alloc => exact ⟨_, .glob .alloc⟩
    | allocZeroed => exact ⟨_, .glob .allocZeroed⟩
    | dealloc ho hi => exact ⟨_, .glob (.dealloc (by rw [← h.cur (hd (.inl ⟨_, _, rfl⟩))]; exact ho) hi)⟩
    | realloc ho hi => exact ⟨_, .glob (.realloc (by rw [← h.cur (hd (.inl ⟨_, _, rfl⟩))]; exact ho) hi)⟩
    | inside => exact ⟨_, .glob .inside⟩
    | @ret t ch c ob q hb => exact ⟨_, .glob (r := some q) (.ret (by rw [← h.on (hd (.inr ⟨_, _, rfl⟩))]; exact hb))⟩
    | write => exact ⟨_, .glob (r := some .unit) .write⟩
    | reset => exact ⟨_, .glob (r := some .unit) .reset⟩
    | resetPanic => exact ⟨_, .glob (r := some .panicked) .resetPanic⟩
    | blinkMode => exact ⟨_, .glob (r := some .unit) .blinkMode⟩
    | directMode => exact ⟨_, .glob (r := some .unit) .directMode⟩
    | directPanic => exact ⟨_, .glob (r := some .panicked) .directPanic⟩

/-- What such a step leaves as it is in the book. -/
theorem GPAfter.indirect {m : Nat → Byte} {a : GPAct} {r K'} (ha : GPAfter m K a r K')
    (hd : (∃ t c, a = .glob (.call t c)) ∨ (∃ t ch, a = .glob (.go t ch)) → K.blinkMode = true) :
    K'.direct = K.direct ∧ (K.blinkMode = false → K'.busy = K.busy ∧ K'.snap = K.snap) ∧
    (K'.blinkMode ≠ K.blinkMode → a = .glob .blinkMode ∨ a = .glob .directMode) ∧
    (a = .glob .blinkMode ∨ a = .glob .directMode → K'.busy = K.busy) := by
  have nb : ∀ {P : Prop}, K.blinkMode = true → K.blinkMode = false → P := by intro P h1 h2; rw [h1] at h2; cases h2
  have del : ∀ b, K.blinkMode = true → K.toGBook.del b = { K.toGBook with blink := K.blink.erase b } := by
    intro b hmd; unfold GBook.del; rw [if_pos hmd]
  cases ha with
  | proxy ha => exact ⟨rfl, fun _ => ⟨rfl, rfl⟩, fun h => absurd rfl h, by rintro (h | h) <;> cases h⟩
  | @glob a r G ha =>
    cases ha with
    | alloc => exact ⟨rfl, nb (hd (.inl ⟨_, _, rfl⟩)), fun h => absurd rfl h, by rintro (h | h) <;> cases h⟩
    | allocZeroed => exact ⟨rfl, nb (hd (.inl ⟨_, _, rfl⟩)), fun h => absurd rfl h, by rintro (h | h) <;> cases h⟩
    | @dealloc t b p l ho hi =>
      have hmd := hd (.inl ⟨_, _, rfl⟩)
      rw [del b hmd]
      exact ⟨rfl, nb hmd, fun h => absurd rfl h, by rintro (h | h) <;> cases h⟩
    | @realloc t b p l n ho hi =>
      have hmd := hd (.inl ⟨_, _, rfl⟩)
      rw [del b hmd]
      exact ⟨rfl, nb hmd, fun h => absurd rfl h, by rintro (h | h) <;> cases h⟩
    | inside => exact ⟨rfl, fun _ => ⟨rfl, rfl⟩, fun h => absurd rfl h, by rintro (h | h) <;> cases h⟩
    | @ret t ch c ob q hb =>
      have hmd := hd (.inr ⟨_, _, rfl⟩)
      have e : K.addL (ggets c ob q) = { K.toGBook with blink := ggets c ob q ++ K.blink } := by unfold GBook.addL; rw [if_pos hmd]
      rw [e]
      exact ⟨rfl, nb hmd, fun h => absurd rfl h, by rintro (h | h) <;> cases h⟩
    | write => exact ⟨rfl, fun _ => ⟨rfl, rfl⟩, fun h => absurd rfl h, by rintro (h | h) <;> cases h⟩
    | reset => exact ⟨rfl, fun _ => ⟨rfl, rfl⟩, fun h => absurd rfl h, by rintro (h | h) <;> cases h⟩
    | resetPanic => exact ⟨rfl, fun _ => ⟨rfl, rfl⟩, fun h => absurd rfl h, by rintro (h | h) <;> cases h⟩
    | blinkMode => exact ⟨rfl, fun _ => ⟨rfl, rfl⟩, fun _ => .inl rfl, fun _ => rfl⟩
    | directMode => exact ⟨rfl, fun _ => ⟨rfl, rfl⟩, fun _ => .inr rfl, fun _ => rfl⟩
    | directPanic => exact ⟨rfl, fun _ => ⟨rfl, rfl⟩, fun h => absurd rfl h, fun _ => rfl⟩

/-- Who is busy after a step. -/
theorem GPAfter.busy_of {m : Nat → Byte} {a : GPAct} {r K'} (ha : GPAfter m K a r K') {t : Nat} {q} (hq : K'.busy t = some q) :
    K.busy t = some q ∨ ∃ c, a = .glob (.call t c) ∧
      ((∃ l, q = (.alloc l, none)) ∨ (∃ l, q = (.allocZeroed l, none)) ∨ (∃ b p l, q = (.dealloc p l, some b)) ∨
        ∃ b p l n, q = (.realloc p l n, some b) ∧ b ∈ K.cur ∧ b.Is p l) := by
  have put : ∀ {u q'}, put K.busy u (some q') t = some q → K.busy t = some q ∨ (u = t ∧ q' = q) := by
    intro u q' h
    by_cases he : t = u
    · subst he; rw [put_same] at h; cases h; exact .inr ⟨rfl, rfl⟩
    · rw [put_ne _ _ he] at h; exact .inl h
  cases ha with
  | proxy ha => exact .inl hq
  | @glob a r G ha =>
    cases ha with
    | alloc => exact (put hq).imp id (by rintro ⟨rfl, rfl⟩; exact ⟨_, rfl, .inl ⟨_, rfl⟩⟩)
    | allocZeroed => exact (put hq).imp id (by rintro ⟨rfl, rfl⟩; exact ⟨_, rfl, .inr (.inl ⟨_, rfl⟩)⟩)
    | dealloc ho hi => exact (put hq).imp id (by rintro ⟨rfl, rfl⟩; exact ⟨_, rfl, .inr (.inr (.inl ⟨_, _, _, rfl⟩))⟩)
    | realloc ho hi => exact (put hq).imp id (by rintro ⟨rfl, rfl⟩; exact ⟨_, rfl, .inr (.inr (.inr ⟨_, _, _, _, rfl, ho, hi⟩))⟩)
    | inside => exact .inl hq
    | @ret u ch c ob q hb =>
      refine .inl ?_
      dsimp only at hq
      by_cases he : t = u
      · subst he; rw [put_same] at hq; cases hq
      · rwa [put_ne _ _ he] at hq
    | write => exact .inl hq
    | reset => exact .inl hq
    | resetPanic => exact .inl hq
    | blinkMode => exact .inl hq
    | directMode => exact .inl hq
    | directPanic => exact .inl hq

theorem GPAfter.pbusy_of {m : Nat → Byte} {a : GPAct} {r K'} (ha : GPAfter m K a r K') {t : Nat} (hq : K'.pbusy t ≠ none) :
    K.pbusy t ≠ none ∨ ∃ a', a = .proxy a' ∧ a'.proxy = some t := by
  cases ha with
  | glob ha => exact .inl hq
  | proxy ha => exact (ha.pbusy_of hq).imp id fun h => ⟨_, rfl, h⟩

theorem GDInv.move (h0 : GPStart x0) (h : GDInv x0 tr x K O D o v f K1 tr1) {a : GPAct} (hl : GPLegal K a) (hl1 : GPLegal K1 a)
    (hr : RelE (D ++ O) (SameGP (D ++ O) x.g.s.w.mem x f) (gpstep x a) (gpstep (x.veil v f) a))
    (hd : (∃ t c, a = .glob (.call t c)) ∨ (∃ t ch, a = .glob (.go t ch)) → K.blinkMode = true) : GDGood x0 tr x K O D a (gpstep x a) := by
  have hat : ∀ a', a = .proxy a' → a'.atProxy = true := by rintro a' rfl; cases hl with | proxy ha => exact ha
  have hqm : a = .glob .blinkMode ∨ a = .glob .directMode → ∀ t, K.busy t = none := by
    rintro (rfl | rfl)
    · cases hl with | blinkMode hl => cases hl with | blinkMode hq => exact hq
    · cases hl with | directMode hl => cases hl with | directMode hq => exact hq
  rcases gp_alone (h.reach h0) hl1 h.priv hr with ⟨e, h1, h2⟩ | ⟨h1, h2⟩ | ⟨r, x', v', f', h1, h2, hpriv, hdlog, hpcs⟩
  · exact .inl ⟨e, h1, .inl h2⟩
  · refine .inr (.inl ⟨h1, ?_⟩)
    rcases C79_no_fault (h.reach h0) hl1 with ⟨_, _, _, h3, _⟩ | ⟨_, h3, _⟩ | ⟨_, h3⟩
    · rw [h2] at h3; cases h3
    · rw [h2] at h3; cases h3
    · exact h3
  · obtain ⟨P, Z, hR, ht⟩ := (h.reach h0).inv
    have hK1 : ∃ K1', GPAfter v.mem K1 a r K1' := by
      rcases ht.step hR hl1 with ⟨_, _, he⟩ | he | ⟨_, _, he, _, hk, _⟩
      · rw [h2] at he; cases he
      · rw [h2] at he; cases he
      · rw [h2] at he; cases he; exact hk
    obtain ⟨K1', hK1⟩ := hK1
    refine .inr (.inr ⟨r, x', h1, h.same.back hK1 hat hd, ?_⟩)
    intro K' hK'
    clear hK1 K1'
    obtain ⟨K1', hK1', hsame⟩ := h.same.after (m1 := v.mem) hK' hat hd hqm fun b hb y hy => (h.bytes h0 (.inl hb) hy).symm
    have hrun := h.run.snoc hl1 h2 hK1'
    have hR' : GPReach (x0.alone o) (x'.veil v' f') K1' := ⟨h0.alone, _, hrun⟩
    obtain ⟨hres, _⟩ := ht.step_ok hR hl1 h2 hK1'
    obtain ⟨hdir, hoff, hmode, hmb⟩ := hK'.indirect hd
    have hbytes : ∀ {b : Owned} {y : Nat}, b ∈ K'.blink ∨ (∃ i, b ∈ K'.blocks i) → b.Has y → x'.g.s.w.mem y = v'.mem y := by
      intro b y hb hy
      have hb1 : b ∈ K1'.blink ∨ ∃ i, b ∈ K1'.blocks i := by
        rw [hsame.blink]
        unfold GPBook.blocks
        rw [hsame.px]
        exact hb
      obtain ⟨_, _, _, B, _, hB, h3, h4⟩ := C79_memory hR' hb1
      exact hpriv.mem B hB y ⟨by obtain ⟨h5, h6⟩ := hy; omega, by obtain ⟨h5, h6⟩ := hy; omega⟩
    have hDm : ∀ d ∈ D, ∀ y, d.Holds y → x'.g.s.w.mem y = x.g.s.w.mem y := fun d hd' y hy => hpriv.oth d (List.mem_append_left _ hd') y hy
    have hf' : ∀ t, K1'.busy t = none → f' t = .idle := by
      intro t hb
      obtain ⟨_, _, _, ht'⟩ := hR'.inv
      exact (ht'.busy_none hb).1
    have hpc : f = x.g.pcs → f' = x'.g.pcs := by
      intro he
      rcases hpcs with ⟨_, h3⟩ | ⟨h3, h4⟩
      · exact h3
      · rw [h3, h4, he]
    refine ⟨⟨?_, fun b hb y hy => hpriv.oth b (List.mem_append_right _ hb) y hy, ?_⟩, D, o, v', f', K1', tr1 ++ [(a, r)],
      ⟨hrun, .keep h.less, hsame, hpriv.rebase, h.good, by rw [hdlog]; exact h.dlg, ?_, ?_, ?_, ?_, ?_⟩⟩
    · intro b y hy hw hbl
      rcases hbl with hbl | ⟨hbl, hbl', hnr⟩ | ⟨i, hbl, hbl', hnr⟩
      · obtain ⟨d, hd', rfl⟩ := h.direct_mem hbl
        exact hDm d hd' y ((h.good d hd').holds hy)
      · rw [hbytes (.inl hbl') hy, h.bytes h0 (.inl hbl) hy]
        exact hres.keep b y hy hw (.inl ⟨by rw [h.same.blink]; exact hbl, hnr⟩)
      · rw [hbytes (.inr ⟨i, hbl'⟩) hy, h.bytes h0 (.inr ⟨i, hbl⟩) hy]
        refine hres.keep b y hy hw (.inr ⟨i, ?_, hnr⟩)
        unfold GPBook.blocks
        rw [h.same.px]
        exact hbl
    · intro t ch c ob q ha hq hb
      subst ha hq
      have hm := hd (.inr ⟨t, ch, rfl⟩)
      have hret := hres.ret t ch c ob q rfl rfl (by rw [h.same.on hm]; exact hb)
      have hK'b : ∀ b ∈ ggets c ob q, b ∈ K'.blink := by
        intro b hbg
        generalize hr' : some (GPResp.glob q) = r' at hK'
        cases hK' with
        | @glob _ r2 G hG =>
          cases (show r2 = some q from GResp.map_inj (r' := some q) hr'.symm)
          cases hG with
          | @ret _ _ c' ob' _ hb' =>
            rw [hb] at hb'
            cases hb'
            show b ∈ (K.addL (ggets c ob q)).blink
            unfold GBook.addL
            rw [if_pos hm]
            exact List.mem_append_left _ hbg
      cases c with
      | alloc l => trivial
      | dealloc p l => trivial
      | allocZeroed l =>
        cases q with
        | ptr q =>
          intro hq i hi
          rw [hbytes (b := granted q l) (y := q + i) (.inl (hK'b _ (by simp [ggets, hq]))) ⟨Nat.le_add_right _ _, by simp only [granted]; omega⟩]
          exact hret hq i hi
        | _ => trivial
      | realloc p l n =>
        cases ob with
        | none => trivial
        | some b =>
          cases q with
          | ptr q =>
            obtain ⟨hi1, hi2⟩ := h.is hm t p l n b hb
            refine ⟨fun hq i hi => ?_, fun hq y hy => ?_⟩
            · rw [hbytes (b := granted q ⟨n, l.align⟩) (y := q + i) (.inl (hK'b _ (by simp [ggets, hq])))
                ⟨Nat.le_add_right _ _, by simp only [granted]; omega⟩, show v'.mem (q + i) = _ from hret.1 hq i hi]
              obtain ⟨e1, e2, _⟩ := hi1
              exact h.same.snap hm t _ b hb _ ⟨by omega, by omega⟩
            · rw [hbytes (b := b) (.inl (hK'b _ (by simp [ggets, hq]))) hy, show v'.mem y = _ from hret.2 hq y hy]
              exact h.same.snap hm t _ b hb _ hy
          | _ => trivial
    · intro t hb
      obtain ⟨q, hq⟩ := Option.ne_none_iff_exists'.mp hb
      refine Classical.byContradiction fun hpb => ?_
      rcases hK'.busy_of hq with hq | ⟨c, rfl, _⟩
      · rcases hK'.pbusy_of hpb with hpb | ⟨a', rfl, hp'⟩
        · exact hpb (h.one t (by rw [hq]; simp))
        · cases hl with
          | proxy ha hl hbz => rw [hbz t hp'] at hq; cases hq
      · rcases hK'.pbusy_of hpb with hpb | ⟨a', hp', _⟩
        · cases hl with
          | call _ _ hp' => exact hpb hp'
        · cases hp'
    · intro hm'
      refine hpc ?_
      by_cases hm : K.blinkMode = true
      · exact h.pcs hm
      · obtain ⟨q1, q2, _⟩ := h.quiet h0 (hqm (hmode (by rw [hm']; exact fun he => hm he.symm)))
        funext t; rw [q1, q2]
    · intro hm'
      rw [hdir]
      by_cases hm : K.blinkMode = true
      · exact h.blk hm
      · exact (h.quiet h0 (hqm (hmode (by rw [hm']; exact fun he => hm he.symm)))).2.2
    · intro hm'
      cases hm : K.blinkMode with
      | false =>
        obtain ⟨hbz, hsn⟩ := hoff hm
        refine (h.dir hm).frame hm h.good ?_ ?_ hbz hsn hdir (hm'.trans hm.symm) hDm
        · rcases hpcs with ⟨h3, h4⟩ | ⟨_, h4⟩
          · rw [← h3, ← h4]
            funext t
            rw [h.fidle h0 (h.same.off hm t), hf' t (hsame.off hm' t)]
          · exact h4
        · obtain ⟨_, _, hRp, _⟩ := hR'.inv
          rw [hpriv.debug, h.priv.debug]
          exact hRp.debug.trans hR.debug.symm
      | true =>
        have hch := hmode (by rw [hm', hm]; simp)
        have hq := hqm hch
        obtain ⟨q1, q2, q3⟩ := h.quiet h0 hq
        have hq' : ∀ t, K'.busy t = none := by intro t; rw [hmb hch]; exact hq t
        refine Bare.quiet hq' (fun t => ?_) (by rw [hdir]; exact q3)
        rcases hpcs with ⟨_, h4⟩ | ⟨_, h4⟩
        · rw [← h4]; exact hf' t (hsame.off hm' t)
        · rw [h4]; exact q1 t
    · intro hm' t p l n b hb
      cases hm : K.blinkMode with
      | false =>
        rw [hmb (hmode (by rw [hm', hm]; simp)), hqm (hmode (by rw [hm', hm]; simp)) t] at hb
        cases hb
      | true =>
        rcases hK'.busy_of hb with hb | ⟨c, rfl, hx⟩
        · exact h.is hm t p l n b hb
        · rcases hx with ⟨_, hx⟩ | ⟨_, hx⟩ | ⟨_, _, _, hx⟩ | ⟨b', p', l', n', hx, hcur, hi⟩
          · cases hx
          · cases hx
          · cases hx
          · cases hx
            refine ⟨hi, ?_⟩
            have hbk : b ∈ K1.blink := by
              unfold GBook.cur at hcur
              rw [if_pos hm] at hcur
              rw [h.same.blink]
              exact hcur
            exact (C79_memory (h.reach h0) (.inl hbk)).2.1

/-! ### Any step -/

theorem GDInv.step (h0 : GPStart x0) (h : GDInv x0 tr x K O D o v f K1 tr1) {a : GPAct} (hl : GDLegal K a) :
    GDGood x0 tr x K O D a (gpstep x a) := by
  obtain ⟨P, Z, hR, ht⟩ := (h.reach h0).inv
  have hwrite : ∀ {y c}, GPLegal K (.glob (.write y c)) → ((∃ b ∈ K.blink, b.Has y) ∨ ∃ i, ∃ b ∈ K.led i, b.Has y) →
      GDGood x0 tr x K O D (.glob (.write y c)) (gpstep x (.glob (.write y c))) := by
    intro y c hl hx
    have hacc : v.accessible y 1 = true := by
      have hb : ∃ b, (b ∈ K.blink ∨ ∃ i, b ∈ K.blocks i) ∧ b.Has y := by
        rcases hx with ⟨b, hb, hy⟩ | ⟨i, b, hb, hy⟩
        · exact ⟨b, .inl hb, hy⟩
        · exact ⟨b, .inr ⟨i, List.mem_append_right _ hb⟩, hy⟩
      obtain ⟨b, hb, hy⟩ := hb
      obtain ⟨B, hB, hin⟩ := h.within h0 hb
      exact accessible_of hB (hin y hy).1 (hin y hy).2
    refine h.move h0 hl (h.same.legal hl (by rintro _ _ ⟨⟩; exact hx)) ?_ (by rintro (⟨_, _, h'⟩ | ⟨_, _, h'⟩) <;> cases h')
    exact gpstep_rel_glob h.priv (.inr ⟨_, _, rfl⟩) (by rintro _ _ ⟨⟩; exact hacc) (by rintro _ _ _ ⟨⟩)
  have nw : ∀ {a : GPAct}, (∀ y c, a ≠ .glob (.write y c)) → ∀ y v, a = .glob (.write y v) →
      (∃ b ∈ K.blink, b.Has y) ∨ ∃ i, ∃ b ∈ K.led i, b.Has y := fun hn y v he => absurd he (hn y v)
  have hquiet : ∀ {a : GAct}, GPLegal K (.glob a) → (∀ t, K.busy t = none) → (a = .reset ∨ a = .blinkMode ∨ a = .directMode) →
      GDGood x0 tr x K O D (.glob a) (gpstep x (.glob a)) := by
    intro a hl hq ha
    obtain ⟨q1, q2, _⟩ := h.quiet h0 hq
    refine h.move h0 hl (h.same.legal hl (nw ?_)) (gpstep_rel_glob h.priv (.inl ?_) ?_ ?_) ?_
    · rintro _ _ ⟨⟩; rcases ha with h | h | h <;> cases h
    · funext t; rw [q1, q2]
    · rintro _ _ ⟨⟩; rcases ha with h | h | h <;> cases h
    · rintro _ _ _ ⟨⟩; rcases ha with h | h | h <;> cases h
    · rintro (⟨_, _, ⟨⟩⟩ | ⟨_, _, ⟨⟩⟩) <;> rcases ha with h | h | h <;> cases h
  cases hl with
  | direct hl hm hp => exact h.skip h0 hm .call (hl.bare hm) (by rintro _ _ ⟨⟩; exact hp)
  | covered hl =>
    have hl' := hl
    cases hl with
    | @call t c hl hm hp =>
      refine h.move h0 hl' (h.same.legal hl' (nw (by rintro _ _ ⟨⟩))) ?_ fun _ => hm
      exact gpstep_rel_glob h.priv (.inl (h.pcs hm)) (by rintro _ _ ⟨⟩) (by rintro _ _ _ ⟨⟩)
    | @go t ch =>
      cases hm : K.blinkMode with
      | true =>
        refine h.move h0 hl' (h.same.legal hl' (nw (by rintro _ _ ⟨⟩))) ?_ fun _ => hm
        refine gpstep_rel_glob h.priv (.inl (h.pcs hm)) (by rintro _ _ ⟨⟩) ?_
        rintro _ _ c ⟨⟩ hpc
        obtain ⟨ibz, hg, _⟩ := ht.thr t
        rw [h.same.mode.trans hm, show (x.veil v f).g.pcs t = .direct c from by rw [← hpc, ← h.pcs hm]; rfl] at hg
        generalize K1.busy t = bz at hg
        cases hg <;> contradiction
      | false =>
        have hg := (h.dir hm).thr t
        refine h.skip h0 hm ?_ .go (by rintro _ _ ⟨⟩)
        obtain ⟨pc, hpc⟩ : ∃ pc, x.g.pcs t = pc := ⟨_, rfl⟩
        rw [hpc] at hg
        generalize K.busy t = bz at hg
        cases hg with
        | idle => exact .idle hpc
        | zero hm' => cases hm'
        | finAlloc hm' => cases hm'
        | finAllocErr hm' => cases hm'
        | finZeroed hm' => cases hm'
        | finZeroedErr hm' => cases hm'
        | finDealloc hm' => cases hm'
        | finRealloc hm' => cases hm'
        | finReallocErr => exact .fin hpc
        | dAlloc => exact .direct hpc
        | dZeroed => exact .direct hpc
        | dDealloc => exact .direct hpc
        | dRealloc => exact .direct hpc
    | @write y c hl =>
      cases hl with
      | @write b _ _ ho hx =>
        rcases List.mem_append.mp ho with hb | hb
        · exact hwrite hl' (.inl ⟨b, hb, hx⟩)
        · cases hm : K.blinkMode with
          | true => exact h.poke h0 hm hb hx
          | false => exact h.skip h0 hm .write (.write (b := b) (List.mem_append_right _ hb) hx) (by rintro _ _ ⟨⟩)
    | pwrite hb hx => exact hwrite hl' (.inr ⟨_, _, hb, hx⟩)
    | reset hl hn => cases hl with | reset hq => exact hquiet hl' hq (.inl rfl)
    | blinkMode hl => cases hl with | blinkMode hq => exact hquiet hl' hq (.inr (.inl rfl))
    | directMode hl hn => cases hl with | directMode hq => exact hquiet hl' hq (.inr (.inr rfl))
    | @proxy a ha hl hb =>
      by_cases hgo : ∀ t ch, a = .shared (.go t ch) → x.g.pcs t = .idle
      · refine h.move h0 hl' (h.same.legal hl' (nw (by rintro _ _ ⟨⟩))) (gpstep_rel_proxy h.priv hR ha ?_)
          (by rintro (⟨_, _, ⟨⟩⟩ | ⟨_, _, ⟨⟩⟩))
        intro t ch he
        refine ⟨hgo t ch he, ?_⟩
        cases hm : K.blinkMode with
        | true => rw [h.pcs hm]; exact hgo t ch he
        | false => exact h.fidle h0 (h.same.off hm t)
      · refine .inr (.inl ?_)
        have : ∃ t ch, a = .shared (.go t ch) ∧ x.g.pcs t ≠ .idle :=
          Classical.byContradiction fun hno => hgo fun t ch he => Classical.byContradiction fun hn => hno ⟨t, ch, he, hn⟩
        obtain ⟨t, ch, rfl, hn⟩ := this
        refine ⟨?_, .inl ⟨t, ch, .inr rfl⟩⟩
        unfold gpstep
        dsimp only
        rw [if_neg hn]
        rfl

/-! ### Others -/

theorem EnvStep.frame {w w' : World} {O O' D : List BaseBlk} (he : EnvStep O w O' w') (hp : w.held.Pairwise BaseBlk.Disjoint) {L : List BaseBlk}
    (hper : w.held.Perm (L ++ (D ++ O))) : (∀ d ∈ D, ∀ y, d.Holds y → w'.mem y = w.mem y) ∧
      ∃ Q, EnvStep (D ++ O) w Q w' ∧ Q.Perm (D ++ O') := by
  have hp := (hper.pairwise_iff (fun h => BaseBlk.Disjoint.symm' h)).mp hp
  rw [List.pairwise_append] at hp
  have hp := hp.2.1
  rw [List.pairwise_append] at hp
  have hin : ∀ d ∈ D, d ∈ w.held := fun d hd => hper.mem_iff.mpr (List.mem_append_right _ (List.mem_append_left _ hd))
  cases he with
  | @take b m h0 ht hd hm =>
    refine ⟨fun d hd' y hy => hm y fun hb => (hd d (hin d hd')).holds hb hy, _, .take h0 ht hd hm, List.perm_middle.symm⟩
  | @give b m hb hm =>
    refine ⟨fun d hd' y hy => hm y fun hb' => (hp.2.2 d hd' b hb).holds hy hb', _, .give (List.mem_append_right _ hb) hm, ?_⟩
    have h1 : (D ++ O).Perm (b :: (D ++ O).erase b) := List.perm_cons_erase (List.mem_append_right _ hb)
    have h2 : (D ++ O).Perm (b :: (D ++ O.erase b)) := ((List.perm_cons_erase hb).append_left D).trans List.perm_middle
    exact (h1.symm.trans h2).cons_inv
  | @write b m hb hm =>
    exact ⟨fun d hd' y hy => hm y fun hb' => (hp.2.2 d hd' b hb).holds hy hb', _, .write (List.mem_append_right _ hb) hm, .refl _⟩
  | ask => exact ⟨fun _ _ _ _ => rfl, _, .ask, .refl _⟩

theorem Priv.perm {O O' : List BaseBlk} {m0 w v} (h : Priv O m0 w v) (hp : O.Perm O') : Priv O' m0 w v :=
  { h with held := h.held.trans (hp.append_left _), oth := fun b hb => h.oth b (hp.mem_iff.mpr hb) }

theorem GDInv.env (h : GDInv x0 tr x K O D o v f K1 tr1) {O' w'} (he : EnvStep O x.g.s.w O' w') :
    ∃ o' v', GDInv x0 tr { x with g := { x.g with s := { x.g.s with w := w' } } } K O' D o' v' f K1 tr1 := by
  obtain ⟨hmem, Q, he', hQ⟩ := he.frame h.priv.ok.dis h.priv.held
  obtain ⟨o', ho, hp⟩ := h.priv.env he'
  refine ⟨o', v.ora o', ?_, h.less, h.same, hp.perm hQ, h.good, h.dlg, h.one, h.pcs, h.blk, fun hm => ?_, h.is⟩
  · obtain ⟨g1, _, g3⟩ := h.run.ora
    exact g3 _ (ho.weaken g1 (Nat.le_refl _))
  · refine (h.dir hm).frame hm h.good rfl ?_ rfl rfl rfl rfl hmem
    cases he <;> rfl

end

/-- The invariant holds all the time. -/
theorem GDRun.inv {x0 x : GPS} {tr K O} (h0 : GPStart x0) (h : GDRun x0 GPBook.empty x0.g.s.w.held tr x K O) :
    ∃ D o v f K1 tr1, GDInv x0 tr x K O D o v f K1 tr1 := by
  induction h with
  | nil => exact ⟨_, _, _, _, _, _, .start h0⟩
  | snoc _ hl hs ha ih =>
    obtain ⟨D, o, v, f, K1, tr1, hi⟩ := ih
    rcases hi.step h0 hl with ⟨_, he, _⟩ | ⟨he, _⟩ | ⟨_, _, he, _, hk⟩
    · rw [hs] at he; cases he
    · rw [hs] at he; cases he
    · rw [hs] at he; cases he
      exact (hk _ ha).2
  | env _ he ih =>
    obtain ⟨D, o, v, f, K1, tr1, hi⟩ := ih
    obtain ⟨o', v', hi'⟩ := hi.env he
    exact ⟨_, _, _, _, _, _, hi'⟩

theorem GDReach.inv {x0 x : GPS} {K O} (h : GDReach x0 x K O) : ∃ tr D o v f K1 tr1, GDInv x0 tr x K O D o v f K1 tr1 :=
  let ⟨h0, tr, hr⟩ := h
  ⟨tr, hr.inv h0⟩

end Blink
