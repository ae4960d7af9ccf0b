import Verif.Proofs.GlobalBothRun
import Verif.Props.GlobalSync
import Verif.Props.Env
import Verif.Spec.GlobalBothExec
/-
  C86: a `GlobalBlinkAlloc` used through `GlobalAlloc` in both modes by any number of threads, and through any number of proxies made by
  `local()`, at the same time, beside other users of the underlying allocator.
-/
namespace Blink

/-- A schedule used in examples. In direct mode a proxy obtains a block; thread 0 obtains one directly and stores into it; others obtain a block;
the proxy is in the middle of another `allocate`; thread 2 is inside `alloc_zeroed`, thread 0 inside `realloc`. -/
def gddemoActs : List (GPAct ⊕ EnvAct) :=
  ([.proxy (.spawn 1 0), .proxy (.allocate 1 ⟨40, 8⟩)] ++ gppgoes 1 5 ++ [.glob (.call 0 (.alloc ⟨24, 8⟩))] ++ gpgoes 0 1 : List GPAct).map .inl ++
  [.inr (.take ⟨400000, 64, ⟨64, 8⟩⟩ (.raw 1)), .inl (.glob (.write 131080 (.raw 7))), .inl (.proxy (.allocate 1 ⟨300, 16⟩)),
   .inl (.proxy (.shared (.go 1 fresh))), .inl (.glob (.call 2 (.allocZeroed ⟨5, 1⟩))), .inl (.glob (.call 0 (.realloc 131072 ⟨24, 8⟩ 24)))]

/-- Others store; the calls in direct mode return while the proxy makes a step. -/
def gddemoMid : List (GPAct ⊕ EnvAct) :=
  [.inr (.write ⟨400000, 64, ⟨64, 8⟩⟩ (.raw 2)), .inl (.glob (.go 2 fresh)), .inl (.proxy (.shared (.go 1 fresh)))]

/-- In blink mode, with the proxy still in the middle of its call, thread 0 obtains a block; others give one back. -/
def gddemoEnd : List (GPAct ⊕ EnvAct) :=
  gddemoActs ++ gddemoMid ++ [.inl (.glob (.go 0 fresh)), .inl (.glob .blinkMode), .inl (.glob (.call 0 (.alloc ⟨10, 2⟩)))] ++
  (gpgoes 0 5).map .inl ++ [.inr (.give ⟨64, 64, ⟨64, 8⟩⟩ .uninit)]

/-- C86: whatever is done directly and by others, what happens in blink mode and through proxies is a history of a global allocator used in
blink mode and through proxies only, that has the underlying allocator to itself (C79): same calls and responses, same blocks with the
same contents, same proxies, same counter. -/
theorem C86_refines {x0 x : GPS} {K : GPBook} {O : List BaseBlk} {tr} (h0 : GPStart x0) (h : GDRun x0 GPBook.empty x0.g.s.w.held tr x K O) :
    ∃ o tr1 y K1, GPStart (x0.alone o) ∧ GPRun (x0.alone o) GPBook.empty tr1 y K1 ∧ Less tr tr1 ∧ SameBlink K K1 ∧
      y.g.s = { x.g.s with w := y.g.s.w } ∧ y.g.enabled = x.g.enabled ∧ y.g.allocations = x.g.allocations ∧ y.px = x.px ∧ y.view = x.view ∧
      y.hist = x.hist ∧ Alongside (openBlocks x.g.dlog ++ O) x.g.s.w y.g.s.w := by
  obtain ⟨D, o, v, f, K1, tr1, hi⟩ := h.inv h0
  refine ⟨o, tr1, _, K1, h0.alone, hi.run, hi.less, hi.same, rfl, rfl, rfl, rfl, rfl, rfl, ?_⟩
  rw [hi.dlg.1]
  exact hi.priv.toAlongside

theorem GDInv.direct_perm {x0 tr x K O D o v f K1 tr1} (h : GDInv x0 tr x K O D o v f K1 tr1) : ∃ R, (K.direct ++ R).Perm (D.map BaseBlk.own) := by
  cases hm : K.blinkMode with
  | true => exact ⟨[], by rw [List.append_nil]; exact h.blk hm⟩
  | false =>
    obtain ⟨ts, _, _, _, h4, _⟩ := (h.dir hm).fam
    exact ⟨_, h4⟩

theorem GDInv.apart_direct {x0 tr x K O D o v f K1 tr1} (h0 : GPStart x0) (h : GDInv x0 tr x K O D o v f K1 tr1) {b c : Owned} (hb : b ∈ K.direct)
    (hc : c ∈ K.blink ∨ ∃ i, c ∈ K.blocks i) : b.Apart c := by
  obtain ⟨d, hd, rfl⟩ := h.direct_mem hb
  obtain ⟨B, hB, hin⟩ := h.within h0 hc
  rintro y ⟨h1, h2⟩
  exact (h.priv.apart hB (List.mem_append_left _ hd)).holds (hin y h2) ((h.good d hd).holds h1)

/-- C86: at every moment of every schedule all blocks in the hands of the program are pairwise disjoint, whether obtained in direct mode, in
blink mode or through any proxies. -/
theorem C86_no_overlap {x0 x : GPS} {K : GPBook} {O : List BaseBlk} (h : GDReach x0 x K O) {ids : List Nat} (hn : ids.Nodup) :
    (K.direct ++ (K.blink ++ ids.flatMap K.blocks)).Pairwise Owned.Apart := by
  obtain ⟨tr, D, o, v, f, K1, tr1, hi⟩ := h.inv
  have hy := C79_no_overlap (hi.reach h.1) hn
  have e : K1.blocks = K.blocks := by funext i; unfold GPBook.blocks; rw [hi.same.px]
  rw [hi.same.blink, e] at hy
  rw [List.pairwise_append]
  refine ⟨?_, hy, ?_⟩
  · obtain ⟨R, hR⟩ := hi.direct_perm
    have hD : (D.map BaseBlk.own).Pairwise Owned.Apart := by
      rw [List.pairwise_map]
      have hp := hi.priv.pairwise
      rw [List.pairwise_append] at hp
      have hp := hp.2.1
      rw [List.pairwise_append] at hp
      refine (List.Pairwise.and_mem.mp hp.1).imp ?_
      rintro a b ⟨ha, hb, hab⟩ y ⟨h1, h2⟩
      exact hab.holds ((hi.good a ha).holds h1) ((hi.good b hb).holds h2)
    have := (hR.pairwise_iff fun h => Owned.Apart.symm h).mpr hD
    rw [List.pairwise_append] at this
    exact this.1
  · intro a ha b hb
    refine hi.apart_direct h.1 ha ?_
    rcases List.mem_append.mp hb with hb | hb
    · exact .inl hb
    · obtain ⟨i, _, hb⟩ := List.mem_flatMap.mp hb
      exact .inr ⟨i, hb⟩

/-- C86: each such block is not null, aligned, at least as long as asked for, and lies in memory obtained from the underlying allocator and
not given back: by a direct call, or by the `SyncBlinkAlloc`. No byte of it belongs to others, and no step of others changes it. -/
theorem C86_memory {x0 x : GPS} {K : GPBook} {O : List BaseBlk} (h : GDReach x0 x K O) {b : Owned} {log : List BaseEvent}
    (hb : (b ∈ K.direct ∧ log = x.g.dlog) ∨ ((b ∈ K.blink ∨ ∃ i, b ∈ K.blocks i) ∧ log = x.g.s.w.log)) :
    (b.addr % b.align = 0 ∧ b.size ≤ b.len ∧ 0 < b.addr ∧
      ∃ B ∈ openBlocks log, B ∈ x.g.s.w.held ∧ B.addr ≤ b.addr ∧ b.addr + b.len ≤ B.addr + B.len) ∧
    (∀ c ∈ O, ∀ y, ¬ (b.Has y ∧ c.Holds y)) ∧ ∀ O' w', EnvStep O x.g.s.w O' w' → ∀ y, b.Has y → w'.mem y = x.g.s.w.mem y := by
  obtain ⟨tr, D, o, v, f, K1, tr1, hi⟩ := h.inv
  rcases hb with ⟨hb, rfl⟩ | ⟨hb, rfl⟩
  · obtain ⟨d, hd, rfl⟩ := hi.direct_mem hb
    have hg := hi.good d hd
    have hin : d ∈ x.g.s.w.held := hi.priv.held.mem_iff.mpr (List.mem_append_right _ (List.mem_append_left _ hd))
    refine ⟨⟨hg.al, Nat.le_refl _, hi.priv.ok.rng d hin |>.1, d, by rw [hi.dlg.1]; exact hd, hin, Nat.le_refl _, ?_⟩, ?_, ?_⟩
    · have := hg.len
      simp only [BaseBlk.own, granted]
      omega
    · rintro c hc y ⟨h1, h2⟩
      have hp := hi.priv.pairwise
      rw [List.pairwise_append] at hp
      have hp := hp.2.1
      rw [List.pairwise_append] at hp
      exact (hp.2.2 d hd c hc).holds (hg.holds h1) h2
    · intro O' w' he y hy
      exact (he.frame hi.priv.ok.dis hi.priv.held).1 d hd y (hg.holds hy)
  · have hb1 : b ∈ K1.blink ∨ ∃ i, b ∈ K1.blocks i := by
      rw [hi.same.blink]
      unfold GPBook.blocks
      rw [hi.same.px]
      exact hb
    obtain ⟨h1, h2, h3, B, h4, h5, h6, h7⟩ := C79_memory (hi.reach h.1) hb1
    have ho := hi.priv.owned_apart h5 h6 h7
    refine ⟨⟨h1, h2, h3, B, by rw [hi.priv.log]; exact h4, hi.priv.held.mem_iff.mpr (List.mem_append_left _ h5), h6, h7⟩,
      fun c hc => ho.1 c (List.mem_append_right _ hc), ?_⟩
    intro O' w' he
    obtain ⟨_, Q, he', _⟩ := he.frame hi.priv.ok.dis hi.priv.held
    exact ho.2 Q w' he'

/-- C86: no legal action ends in a fault that is not the underlying allocator's (`GDExcuse`), except the `realloc` of a block to another size in
direct mode (see C48: that one always does). It can be carried out, unless it is the next step of a thread that is not inside a call or has to
wait, or the creation of a proxy with a hint older than one its thread has seen. Blocks of others are not touched. -/
theorem C86_no_fault {x0 x : GPS} {K : GPBook} {O : List BaseBlk} {a : GPAct} (h : GDReach x0 x K O) (hl : GDLegal K a)
    (hc : ∀ t ch p l n b, a = .glob (.go t ch) → K.blinkMode = false → K.busy t = some (.realloc p l n, b) → n = l.size ∨ ISIZE < n + l.align) :
    (∃ r x' K', gpstep x a = .ok (some (r, x')) ∧ GPAfter x.g.s.w.mem K a r K' ∧ GDReach x0 x' K' O ∧
      ∀ b ∈ O, b ∈ x'.g.s.w.held ∧ ∀ y, b.Holds y → x'.g.s.w.mem y = x.g.s.w.mem y) ∨
    (∃ e, gpstep x a = .error e ∧ GDExcuse x K a e) ∨
    (gpstep x a = .ok none ∧ ((∃ t ch, a = .glob (.go t ch) ∨ a = .proxy (.shared (.go t ch))) ∨
      ∃ i k, a = .proxy (.spawn i k) ∧ x.hist.getD k (x.hist.headD 0) < x.view i)) := by
  have h' := h
  obtain ⟨h0, tr, hr⟩ := h'
  obtain ⟨D, o, v, f, K1, tr1, hi⟩ := hr.inv h0
  rcases hi.step h0 hl with ⟨e, he, hf⟩ | he | ⟨r, x', he, ⟨K', hK'⟩, hk⟩
  · refine .inr (.inl ⟨e, he, ?_⟩)
    rcases hf with (hf | hf | ⟨l, sl, hf, b, hb, hx⟩) | ⟨ga, rfl, hf | ⟨t, ch, p, l, n, b, rfl, hm, hb, h1, h2⟩⟩
    · exact .inr (.inr (.inl hf))
    · exact .inr (.inl hf)
    · exact .inl ⟨l, sl, hf, b, hi.priv.held.mem_iff.mpr (List.mem_append_right _ hb), hx⟩
    · exact .inr (.inr (.inr ⟨ga, rfl, hf⟩))
    · rcases hc t ch p l n b rfl hm hb with h3 | h3
      · exact absurd h3 h1
      · exact absurd h2 (Nat.not_le_of_lt h3)
  · exact .inr (.inr he)
  · obtain ⟨hres, D', o', v', f', K1', tr1', hi'⟩ := hk K' hK'
    refine .inl ⟨r, x', K', he, hK', ⟨h0, _, hr.snoc hl he hK'⟩, fun b hb => ⟨?_, hres.oth b hb⟩⟩
    exact hi'.priv.held.mem_iff.mpr (List.mem_append_right _ (List.mem_append_right _ hb))

/-- C86: no step of anybody changes a byte of a block in the hands of the program before and after, however obtained, unless it is the owner's
store to that byte; or the reset or drop of the proxy the block was obtained through; or, for blocks of blink mode, a reset of the global
allocator. (Steps of others: see `C86_memory`.) -/
theorem C86_keeps {x0 x x' : GPS} {K K' : GPBook} {O : List BaseBlk} {a : GPAct} {r : Option GPResp} (h : GDReach x0 x K O) (hl : GDLegal K a)
    (hs : gpstep x a = .ok (some (r, x'))) (ha : GPAfter x.g.s.w.mem K a r K') {b : Owned} {y : Nat} (hy : b.Has y)
    (hw : ∀ v, a ≠ .glob (.write y v))
    (hb : b ∈ K.direct ∨ (b ∈ K.blink ∧ b ∈ K'.blink ∧ a ≠ .glob .reset ∧ a ≠ .glob .directMode) ∨
      ∃ i, b ∈ K.blocks i ∧ b ∈ K'.blocks i ∧ a ≠ .proxy (.reset i) ∧ a ≠ .proxy (.resetUnchecked i) ∧ a ≠ .proxy (.drop i)) :
    x'.g.s.w.mem y = x.g.s.w.mem y := by
  obtain ⟨tr, D, o, v, f, K1, tr1, hi⟩ := h.inv
  rcases hi.step h.1 hl with ⟨_, he, _⟩ | ⟨he, _⟩ | ⟨_, _, he, _, hk⟩
  · rw [he] at hs; cases hs
  · rw [he] at hs; cases hs
  · rw [he] at hs; cases hs
    refine (hk K' ha).1.keep b y hy hw (hb.imp id (Or.imp (fun ⟨h1, h2, h3, h4⟩ => ⟨h1, h2, ?_⟩) id))
    rintro a' rfl
    cases a' <;> first | rfl | exact absurd rfl h3 | exact absurd rfl h4

/-- While a thread's call of the global allocator has not returned, the program's book about it stays. -/
theorem GDRun.snap {x1 K1 O1 tr x2 K2 O2} (h : GDRun x1 K1 O1 tr x2 K2 O2) {t : Nat} {q} (hb : K1.busy t = some q)
    (hno : ∀ ch r, (GPAct.glob (.go t ch), some r) ∉ tr) : K2.busy t = some q ∧ K2.snap t = K1.snap t := by
  induction h with
  | nil => exact ⟨hb, rfl⟩
  | env _ _ ih => exact ih hno
  | @snoc tr x K O a r x' K' hr hl hs ha ih =>
    obtain ⟨h1, h2⟩ := ih fun ch r hm => hno ch r (List.mem_append_left _ hm)
    cases ha with
    | proxy => exact ⟨h1, h2⟩
    | @glob a r G ha =>
      have hne : ∀ {u c}, a = .call u c → t ≠ u := by
        rintro u c rfl rfl
        have hb' : K.busy t = none := by
          cases hl with
          | covered hl =>
            cases hl with
            | call hl => cases hl <;> assumption
          | direct hl => cases hl <;> assumption
        rw [h1] at hb'; cases hb'
      cases ha with
      | alloc => dsimp only; rw [put_ne _ _ (hne rfl), put_ne _ _ (hne rfl)]; exact ⟨h1, h2⟩
      | allocZeroed => dsimp only; rw [put_ne _ _ (hne rfl), put_ne _ _ (hne rfl)]; exact ⟨h1, h2⟩
      | dealloc => dsimp only; rw [put_ne _ _ (hne rfl), put_ne _ _ (hne rfl)]; exact ⟨h1, h2⟩
      | realloc => dsimp only; rw [put_ne _ _ (hne rfl), put_ne _ _ (hne rfl)]; exact ⟨h1, h2⟩
      | @ret u ch c ob r hb' =>
        have hne : t ≠ u := fun he => by subst he; exact hno ch (.glob r) (by simp)
        dsimp only; rw [put_ne _ _ hne]; exact ⟨h1, h2⟩
      | _ => exact ⟨h1, h2⟩

theorem GDRun.trans {x0 K0 O0 tr1 x1 K1 O1 tr2 x2 K2 O2} (h1 : GDRun x0 K0 O0 tr1 x1 K1 O1) (h2 : GDRun x1 K1 O1 tr2 x2 K2 O2) :
    GDRun x0 K0 O0 (tr1 ++ tr2) x2 K2 O2 := by
  induction h2 with
  | nil => simpa using h1
  | snoc _ hl hs ha ih => rw [← List.append_assoc]; exact ih.snoc hl hs ha
  | env _ he ih => exact ih.env he

theorem GDInv.ret_of {x0 tr x K O D o v f K1 tr1} (h0 : GPStart x0) (h : GDInv x0 tr x K O D o v f K1 tr1) {t : Nat} {ch : Choice} {c : GCall}
    {ob : Option Owned} {q : GResp} {x'} (hs : gpstep x (.glob (.go t ch)) = .ok (some (some (.glob q), x'))) (hb : K.busy t = some (c, ob)) :
    Returned x'.g.s.w.mem (K.snap t) c ob q := by
  rcases h.step h0 (a := .glob (.go t ch)) (.covered .go) with ⟨_, he, _⟩ | ⟨he, _⟩ | ⟨_, _, he, ⟨K', hK'⟩, hk⟩
  · rw [he] at hs; cases hs
  · rw [he] at hs; cases hs
  · rw [he] at hs; cases hs
    exact (hk K' hK').1.ret t ch c ob q rfl rfl hb

theorem cur_addL {K : GPBook} {t bs} :
    ({ K with toGSBook := { K.toGSBook with toGBook := K.addL bs, busy := put K.busy t none } } : GPBook).cur = bs ++ K.cur := by
  unfold GBook.cur GBook.addL
  cases hm : K.blinkMode <;> simp

/-- C86: in either mode, a `realloc` that returns a pointer returns a block holding the old contents as they were when the call was made, as
far as both sizes reach; one that returns null leaves the old block to its owner, with its contents; whatever other threads, proxies and other
users of the underlying allocator do between call and return. -/
theorem C86_realloc {x0 x x1 x2 x3 : GPS} {K K1 K2 : GPBook} {O O2 : List BaseBlk} (h : GDReach x0 x K O) {t p n q : Nat} {l : Layout}
    (hl : GDLegal K (.glob (.call t (.realloc p l n)))) (hs : gpstep x (.glob (.call t (.realloc p l n))) = .ok (some (none, x1)))
    (ha : GPAfter x.g.s.w.mem K (.glob (.call t (.realloc p l n))) none K1) {tr} (hr : GDRun x1 K1 O tr x2 K2 O2)
    (hno : ∀ ch r, (GPAct.glob (.go t ch), some r) ∉ tr) {ch : Choice}
    (hret : gpstep x2 (.glob (.go t ch)) = .ok (some (some (.glob (.ptr q)), x3))) :
    (q ≠ 0 → (∀ i, i < min l.size n → x3.g.s.w.mem (q + i) = x.g.s.w.mem (p + i)) ∧
      ∃ K3, GDReach x0 x3 K3 O2 ∧ K3.cur = granted q ⟨n, l.align⟩ :: K2.cur) ∧
    (q = 0 → ∃ b ∈ K.cur, b.Is p l ∧ (∀ y, b.Has y → x3.g.s.w.mem y = x.g.s.w.mem y) ∧ ∃ K3, GDReach x0 x3 K3 O2 ∧ K3.cur = b :: K2.cur) := by
  obtain ⟨h0, tr0, hr0⟩ := h
  have hr2 := (hr0.snoc hl hs ha).trans hr
  obtain ⟨D, o, v, f, K1', tr1, hi⟩ := hr2.inv h0
  generalize hrr : (none : Option GPResp) = rr at ha
  cases ha with
  | @glob _ r G hG =>
    cases hG with
    | @realloc _ b _ _ _ ho hio =>
      obtain ⟨hb2, hsn⟩ := hr.snap (t := t) (put_same _ _ _) hno
      dsimp only at hsn
      rw [put_same] at hsn
      have h3 := hr2.snoc (.covered .go) hret (.glob (r := some (.ptr q)) (.ret hb2))
      have hres := hi.ret_of h0 hret hb2
      rw [hsn] at hres
      refine ⟨fun hq => ⟨hres.1 hq, _, ⟨h0, _, h3⟩, ?_⟩, fun hq => ⟨b, ho, hio, hres.2 hq, _, ⟨h0, _, h3⟩, ?_⟩⟩
      · rw [cur_addL]; simp [ggets, hq]
      · rw [cur_addL]; simp [ggets, hq]

/-- C86: in either mode, when `alloc_zeroed` returns a pointer, its caller then owns a block of the requested layout there, full of zeros; `alloc`
likewise without the zeros. -/
theorem C86_alloc {x0 x x' : GPS} {K : GPBook} {O : List BaseBlk} (h : GDReach x0 x K O) {t q : Nat} {ch : Choice} {c : GCall} {l : Layout}
    {ob : Option Owned} (hc : c = .alloc l ∨ c = .allocZeroed l) (hb : K.busy t = some (c, ob))
    (hs : gpstep x (.glob (.go t ch)) = .ok (some (some (.glob (.ptr q)), x'))) (hq : q ≠ 0) :
    (∃ K', GDReach x0 x' K' O ∧ K'.cur = granted q l :: K.cur) ∧ (c = .allocZeroed l → ∀ i, i < l.size → x'.g.s.w.mem (q + i) = .raw 0) := by
  obtain ⟨h0, tr, hr⟩ := h
  obtain ⟨D, o, v, f, K1', tr1, hi⟩ := hr.inv h0
  refine ⟨⟨_, ⟨h0, _, hr.snoc (.covered .go) hs (.glob (r := some (.ptr q)) (.ret hb))⟩, ?_⟩, ?_⟩
  · have hg : ggets c ob (.ptr q) = [granted q l] := by
      rcases hc with rfl | rfl <;> simp [ggets, hq]
    exact (cur_addL (K := K) (t := t)).trans (by rw [hg]; rfl)
  · rintro rfl
    exact hi.ret_of h0 hs hb hq

/-- C86: in direct mode a call of `GlobalAlloc` is passed on to the underlying allocator once, as it is, and the answer is returned, whatever proxies
are doing; a `realloc` to a size that makes no layout returns null and does nothing. (Excepted: `realloc` to another size, C48.) -/
theorem C86_direct {x0 x : GPS} {K : GPBook} {O : List BaseBlk} (h : GDReach x0 x K O) {t : Nat} {c : GCall} {ob : Option Owned} {ch : Choice}
    (hm : K.blinkMode = false) (hb : K.busy t = some (c, ob)) (hc : ∀ p l n, c = .realloc p l n → n = l.size ∨ ISIZE < n + l.align) :
    (∃ e, gpstep x (.glob (.go t ch)) = .error e ∧ GSBad x.g K.toGSBook (.go t ch) e) ∨
    ∃ r x', gpstep x (.glob (.go t ch)) = .ok (some (some (.glob r), x')) ∧ x'.px = x.px ∧ x'.hist = x.hist ∧ x'.view = x.view ∧
      (SForwarded c r x.g x'.g ∨ (∃ p l n, c = .realloc p l n ∧ ISIZE < n + l.align ∧ r = .ptr 0 ∧ x'.g.s.w = x.g.s.w ∧ x'.g.dlog = x.g.dlog)) := by
  obtain ⟨tr, D, o, v, f, K1, tr1, hi⟩ := h.inv
  have hg := hi.gs h.1 hm
  have hba : BareAct x.g (.go t ch) := by
    rcases hg.direct_pc hm hb with hpc | ⟨p, l, n, rfl, _, hpc⟩
    · exact .direct hpc
    · exact .fin hpc
  rcases hg.direct_calls (ch := ch) hm hb hc with ⟨e, h1, h2⟩ | ⟨r, g', h1, h2, _⟩
  · refine .inl ⟨e, ?_, h1⟩
    rcases gsstep_bare ((hi.mode h.1).trans hm) hba with ⟨e', h3, h4⟩ | ⟨_, h4⟩ | ⟨_, _, _, _, _, h4, _⟩
    · rw [h2] at h4; cases h4; exact gpstep_err h3
    · rw [h2] at h4; cases h4
    · rw [h2] at h4; cases h4
  · rcases gsstep_bare ((hi.mode h.1).trans hm) hba with ⟨e', h3, h4⟩ | ⟨_, h4⟩ | ⟨r', w1, d, f1, h3, h4, h5⟩
    · rw [h1] at h4; cases h4
    · rw [h1] at h4; cases h4
    · rw [h1] at h4; cases h4
      refine .inr ⟨r, _, gpstep_ok h3, rfl, rfl, rfl, ?_⟩
      rcases h2 with ⟨_, _, h2⟩ | ⟨p, l, n, h6, h7, h8, h9, h10⟩
      · exact .inl ⟨rfl, h5, h2⟩
      · refine .inr ⟨p, l, n, h6, h7, h8, ?_, h10⟩
        have hw : ({ w1 with log := [] } : World) = { x.g.s.w with log := [] } := congrArg SS.w h9
        calc w1 = { ({ w1 with log := [] } : World) with log := w1.log } := rfl
          _ = x.g.s.w := by rw [hw, h5]

/-- C86: in direct mode *every* `realloc` to another size (that makes a layout at all) ends in a violation of the contract of the underlying allocator,
whatever proxies and others do. So `C86_no_fault` excepts nothing that works. -/
theorem C86_realloc_always_wrong {x0 x : GPS} {K : GPBook} {O : List BaseBlk} (h : GDReach x0 x K O) {t p n : Nat} {l : Layout} {ob : Option Owned}
    (hm : K.blinkMode = false) (hb : K.busy t = some (.realloc p l n, ob)) (hn : n ≠ l.size) (hs : n + l.align ≤ ISIZE) (ch : Choice) :
    ∃ why, gpstep x (.glob (.go t ch)) = .error (.ub why) := by
  obtain ⟨tr, D, o, v, f, K1, tr1, hi⟩ := h.inv
  have hg := hi.gs h.1 hm
  have hba : BareAct x.g (.go t ch) := by
    rcases hg.direct_pc hm hb with hpc | ⟨p, l, n, he, _, hpc⟩
    · exact .direct hpc
    · cases he; exact .fin hpc
  obtain ⟨why, hw⟩ := hg.uncalm (ch := ch) hm hb hn hs
  refine ⟨why, ?_⟩
  rcases gsstep_bare ((hi.mode h.1).trans hm) hba with ⟨e', h3, h4⟩ | ⟨_, h4⟩ | ⟨_, _, _, _, _, h4, _⟩
  · rw [show gsstep x.g.bare (.go t ch) = _ from hw] at h4; cases h4; exact gpstep_err h3
  · rw [show gsstep x.g.bare (.go t ch) = _ from hw] at h4; cases h4
  · rw [show gsstep x.g.bare (.go t ch) = _ from hw] at h4; cases h4

/-- C86: with nobody inside a call of the global allocator, the counter of a debug build equals the number of blocks obtained in blink mode and not
given back, whatever was done in direct mode and whatever proxies there are. -/
theorem C86_counter {x0 x : GPS} {K : GPBook} {O : List BaseBlk} (h : GDReach x0 x K O) (hd : x0.g.s.w.debug = true) (hq : ∀ t, K.busy t = none) :
    x.g.allocations = K.blink.length := by
  obtain ⟨tr, D, o, v, f, K1, tr1, hi⟩ := h.inv
  have := C79_counter (hi.reach h.1) hd fun t => hi.same.idle (hq t)
  rw [hi.same.blink] at this
  exact this

/-- C86: there is no deadlock: while some thread is inside a call of the global allocator or of its proxy, some thread inside a call can
make its next step. -/
theorem C86_somebody_moves {x0 x : GPS} {K : GPBook} {O : List BaseBlk} (h : GDReach x0 x K O) {t : Nat} (hb : K.busy t ≠ none ∨ K.pbusy t ≠ none)
    (ch : Choice) : ∃ u, (K.busy u ≠ none ∧ gpstep x (.glob (.go u ch)) ≠ .ok none) ∨
      (K.pbusy u ≠ none ∧ gpstep x (.proxy (.shared (.go u ch))) ≠ .ok none) := by
  obtain ⟨tr, D, o, v, f, K1, tr1, hi⟩ := h.inv
  have hy := hi.reach h.1
  obtain ⟨P, Z, hR, ht⟩ := hy.inv
  have hdir : K.blinkMode = false → K.busy t ≠ none → gpstep x (.glob (.go t ch)) ≠ .ok none := by
    intro hm hbz hn
    obtain ⟨⟨c, ob⟩, hc⟩ := Option.ne_none_iff_exists'.mp hbz
    have hn' : ggo x.g t ch = .ok none := by
      unfold gpstep at hn
      dsimp only at hn
      obtain ⟨z, hz, hn⟩ := ebind_inv hn
      cases z with
      | none => exact hz
      | some z => cases hn
    unfold ggo at hn'
    rcases (hi.gs h.1 hm).direct_pc hm hc with hpc | ⟨p, l, n, rfl, _, hpc⟩
    · rw [show x.g.pcs t = _ from hpc] at hn'
      dsimp only at hn'
      cases hbp : x.g.bypass (baseFor c) with
      | error e => rw [hbp] at hn'; cases hn'
      | ok y => rw [hbp] at hn'; cases hn'
    · rw [show x.g.pcs t = _ from hpc] at hn'
      cases hn'
  have hb1 : (K.blinkMode = false ∧ K.busy t ≠ none) ∨ K1.busy t ≠ none ∨ K1.pbusy t ≠ none := by
    rcases hb with hb | hb
    · cases hm : K.blinkMode with
      | false => exact .inl ⟨rfl, hb⟩
      | true => exact .inr (.inl (by rw [hi.same.on hm]; exact hb))
    · exact .inr (.inr (by rw [hi.same.pbusy]; exact hb))
  rcases hb1 with ⟨hm, hb⟩ | hb1
  · exact ⟨t, .inl ⟨hb, hdir hm hb⟩⟩
  obtain ⟨u, hu⟩ := C79_somebody_moves hy hb1 ch
  refine ⟨u, hu.imp ?_ ?_⟩
  · rintro ⟨h1, h2⟩
    have hm : K.blinkMode = true := by
      cases hm : K.blinkMode with
      | true => rfl
      | false => exact absurd (hi.same.off hm u) h1
    refine ⟨by rw [← hi.same.on hm]; exact h1, fun hn => h2 ?_⟩
    have hr := gpstep_rel_glob (a := .go u ch) hi.priv (.inl (hi.pcs hm)) (by rintro _ _ ⟨⟩) (by
      rintro _ _ c ⟨⟩ hpc
      obtain ⟨ibz, hg, _⟩ := ht.thr u
      rw [hi.same.mode.trans hm, show (x.veil v f).g.pcs u = .direct c from by rw [← hpc, ← hi.pcs hm]; rfl] at hg
      generalize K1.busy u = bz at hg
      cases hg <;> contradiction)
    rcases gp_alone hy .go hi.priv hr with ⟨_, h3, _⟩ | ⟨_, h4⟩ | ⟨_, _, _, _, h3, _⟩
    · rw [hn] at h3; cases h3
    · exact h4
    · rw [hn] at h3; cases h3
  · rintro ⟨h1, h2⟩
    have h1 : K.pbusy u ≠ none := by rw [← hi.same.pbusy]; exact h1
    refine ⟨h1, fun hn => h2 ?_⟩
    have hbz : K.busy u = none := Classical.byContradiction fun hne => h1 (hi.one u hne)
    have hf : f u = .idle := hi.fidle h.1 (hi.same.idle hbz)
    have hx : x.g.pcs u = .idle := by
      cases hm : K.blinkMode with
      | true => rw [← hi.pcs hm]; exact hf
      | false => exact ((hi.gs h.1 hm).busy_none hbz).1
    have hr := gpstep_rel_proxy (a := .shared (.go u ch)) hi.priv hR rfl (by rintro _ _ ⟨⟩; exact ⟨hx, hf⟩)
    rcases gp_alone hy (.proxy rfl .go (by rintro _ ⟨⟩)) hi.priv hr with ⟨_, h3, _⟩ | ⟨_, h4⟩ | ⟨_, _, _, _, h3, _⟩
    · rw [hn] at h3; cases h3
    · exact h4
    · rw [hn] at h3; cases h3

/-! ### Non-vacuity -/

/-- For `C86_refines`, `C86_no_overlap`, `C86_memory`, `C86_keeps`, `C86_counter`: blocks of all kinds exist, the proxy is inside a call, others hold a block. -/
example : ∃ x0 x K O tr r x' K', GPStart x0 ∧ x0.g.s.w.debug = true ∧ GDRun x0 GPBook.empty x0.g.s.w.held tr x K O ∧ K.direct.length = 2 ∧
    K.blink.length = 1 ∧ (K.blocks 1).length = 1 ∧ K.pbusy 1 = some (.allocate ⟨300, 16⟩, none) ∧ O.length = 1 ∧ (∀ t, K.busy t = none) ∧
    K.blinkMode = true ∧ GDLegal K (.glob (.write 262146 (.raw 3))) ∧ gpstep x (.glob (.write 262146 (.raw 3))) = .ok (some (r, x')) ∧
    GPAfter x.g.s.w.mem K (.glob (.write 262146 (.raw 3))) r K' ∧ K'.blink = K.blink ∧ x'.g.s.w.mem 262146 = .raw 3 := by
  obtain ⟨tr, x, K, O, ts, h0, hr, hfine, hf⟩ := of_gddemoAt (sizes := [512, 24, 24, 4096]) (debug := true) (as := gddemoEnd)
    (f := fun _ _ K O ts => decide (ts = [0, 0, 2, 0]) && decide (K.direct = [⟨262144, 24, 24, 8⟩, ⟨196608, 5, 5, 1⟩]) &&
      decide (K.blink.length = 1) && decide ((K.blocks 1).length = 1) && decide (K.pbusy 1 = some (.allocate ⟨300, 16⟩, none)) &&
      decide (O.length = 1) && (K.busy 0).isNone && (K.busy 2).isNone && K.blinkMode) (by decide +kernel)
  simp only [Bool.and_eq_true, decide_eq_true_eq, Option.isNone_iff_eq_none] at hf
  obtain ⟨⟨⟨⟨⟨⟨⟨⟨rfl, h1⟩, h2⟩, h3⟩, h4⟩, h5⟩, h6⟩, h7⟩, h8⟩ := hf
  have hq : ∀ t, K.busy t = none := by
    intro t
    by_cases ht : t ∈ [0, 0, 2, 0]
    · rcases List.mem_cons.mp ht with rfl | ht
      · exact h6
      rcases List.mem_cons.mp ht with rfl | ht
      · exact h6
      rcases List.mem_cons.mp ht with rfl | ht
      · exact h7
      · rw [List.mem_singleton.mp ht]; exact h6
    · exact hfine.1 t ht
  exact ⟨_, x, K, O, tr, _, _, _, h0, rfl, hr, by rw [h1]; rfl, h2, h3, h4, h5, hq, h8,
    .covered (.write (.write (b := ⟨262144, 24, 24, 8⟩) (List.mem_append_right _ (by rw [h1]; exact List.mem_cons_self)) ⟨by decide, by decide⟩)),
    rfl, .glob (r := some .unit) .write, rfl, rfl⟩

/-- For `C86_no_fault`, `C86_direct`, `C86_alloc`, `C86_somebody_moves`: in direct mode two threads are inside calls of `GlobalAlloc` and a third
inside one of its proxy; `alloc_zeroed` returns a block. -/
example : ∃ x0 x K O tr ob, GPStart x0 ∧ GDRun x0 GPBook.empty x0.g.s.w.held tr x K O ∧ K.blinkMode = false ∧ O.length = 2 ∧
    K.busy 2 = some (.allocZeroed ⟨5, 1⟩, none) ∧ K.busy 0 = some (.realloc 131072 ⟨24, 8⟩ 24, ob) ∧ K.pbusy 1 = some (.allocate ⟨300, 16⟩, none) ∧
    ∃ x', gpstep x (.glob (.go 2 fresh)) = .ok (some (some (.glob (.ptr 196608)), x')) := by
  obtain ⟨tr, x, K, O, ts, h0, hr, hfine, hf⟩ := of_gddemoAt (sizes := [512, 24, 24, 4096]) (debug := true) (as := gddemoActs)
    (f := fun _ x K O _ => !K.blinkMode && decide (O.length = 2) && decide (K.busy 2 = some (.allocZeroed ⟨5, 1⟩, none)) &&
      decide (K.busy 0 = some (.realloc 131072 ⟨24, 8⟩ 24, some ⟨131072, 24, 24, 8⟩)) && decide (K.pbusy 1 = some (.allocate ⟨300, 16⟩, none)) &&
      match gpstep x (.glob (.go 2 fresh)) with
      | .ok (some (some (.glob (.ptr q)), _)) => decide (q = 196608)
      | _ => false) (by decide +kernel)
  simp only [Bool.and_eq_true, decide_eq_true_eq, Bool.not_eq_true'] at hf
  obtain ⟨⟨⟨⟨⟨h1, h2⟩, h3⟩, h4⟩, h5⟩, h6⟩ := hf
  split at h6
  · rename_i q x' hx
    have := of_decide_eq_true h6
    subst this
    exact ⟨_, x, K, O, tr, _, h0, hr, h1, h2, h3, h4, h5, x', hx⟩
  · cases h6

/-- For `C86_realloc_always_wrong`: a `realloc` to 48 bytes in direct mode, with the proxy in the middle of its call. -/
example : ∃ x0 x K O ob, GDReach x0 x K O ∧ K.blinkMode = false ∧ K.busy 0 = some (.realloc 131072 ⟨24, 8⟩ 48, ob) ∧
    K.pbusy 1 = some (.allocate ⟨300, 16⟩, none) := by
  obtain ⟨tr, x, K, O, ts, h0, hr, hfine, hf⟩ := of_gddemoAt (sizes := [512, 24, 24, 4096]) (debug := true)
    (as := gddemoActs.take 14 ++ [.inl (.glob (.call 0 (.realloc 131072 ⟨24, 8⟩ 48)))]) (f := fun _ x K O _ => !K.blinkMode &&
      decide (K.busy 0 = some (.realloc 131072 ⟨24, 8⟩ 48, some ⟨131072, 24, 24, 8⟩)) && decide (K.pbusy 1 = some (.allocate ⟨300, 16⟩, none)))
    (by decide +kernel)
  simp only [Bool.and_eq_true, decide_eq_true_eq, Bool.not_eq_true'] at hf
  exact ⟨_, x, K, O, _, ⟨h0, _, hr⟩, hf.1.1, hf.1.2, hf.2⟩

/-- For `C86_realloc`: the hypotheses are met, with a store of others, a call of thread 2 and a step of the proxy between call and return. -/
example : ∃ x0 x x1 x2 x3 K K1 K2 O O2 tr, GDReach x0 x K O ∧ GDLegal K (.glob (.call 0 (.realloc 131072 ⟨24, 8⟩ 24))) ∧
    gpstep x (.glob (.call 0 (.realloc 131072 ⟨24, 8⟩ 24))) = .ok (some (none, x1)) ∧
    GPAfter x.g.s.w.mem K (.glob (.call 0 (.realloc 131072 ⟨24, 8⟩ 24))) none K1 ∧ GDRun x1 K1 O tr x2 K2 O2 ∧ tr.length = 2 ∧
    (∀ ch r, (GPAct.glob (.go 0 ch), some r) ∉ tr) ∧ gpstep x2 (.glob (.go 0 fresh)) = .ok (some (some (.glob (.ptr 262144)), x3)) ∧
    x.g.s.w.mem 131080 = .raw 7 := by
  obtain ⟨tr, x, K, O, ts, h0, hr, hfine, hf⟩ := of_gddemoAt (sizes := [512, 24, 24, 4096]) (debug := true) (as := gddemoActs.take 14)
    (f := fun _ x K O ts => decide (x.g.s.w.mem 131080 = .raw 7) && match gpstep x (.glob (.call 0 (.realloc 131072 ⟨24, 8⟩ 24))) with
      | .ok (some (none, x1)) =>
        match gdbook x.g.s.w.mem K ts (.glob (.call 0 (.realloc 131072 ⟨24, 8⟩ 24))) none with
        | some (K1, ts1) =>
          match gdexecAll x1 K1 ts1 O gddemoMid with
          | some (tr, x2, _, _, _) => decide (tr.length = 2) && tr.all (fun
            | (.glob (.go t _), some _) => decide (t ≠ 0)
            | _ => true) &&
            match gpstep x2 (.glob (.go 0 fresh)) with
            | .ok (some (some (.glob (.ptr q)), _)) => decide (q = 262144)
            | _ => false
          | none => false
        | none => false
      | _ => false) (by decide +kernel)
  simp only [Bool.and_eq_true, decide_eq_true_eq] at hf
  obtain ⟨hmem, hf⟩ := hf
  split at hf
  · rename_i x1 h1
    split at hf
    · rename_i K1 ts1 h2
      obtain ⟨a1, a2, a3⟩ := gdbook_sound hfine h2
      split at hf
      · rename_i tr2 x2 K2 O2 ts2 h3
        simp only [Bool.and_eq_true, decide_eq_true_eq] at hf
        obtain ⟨⟨h4, h5⟩, h6⟩ := hf
        obtain ⟨a4, _⟩ := gdexecAll_sound .nil a3 h3
        split at h6
        · rename_i q x3 h7
          have := of_decide_eq_true h6
          subst this
          refine ⟨_, x, x1, x2, x3, K, K1, K2, O, O2, tr2, ⟨h0, _, hr⟩, a1, h1, a2, a4, h4, fun ch r hm => ?_, h7, hmem⟩
          have := List.all_eq_true.mp h5 _ hm
          simp at this
        · cases h6
      · cases hf
    · cases hf
  · cases hf

end Blink
