import Verif.Proofs.GlobalProxyRun
import Verif.Props.ProxyProgress
import Verif.Spec.GlobalProxyExec
/-
  C79: a `GlobalBlinkAlloc` used through `GlobalAlloc` in blink mode by any number of threads, and through any number of proxies made by
  `local()` (src/global/sync.rs:338-340), at the same time.
-/
namespace Blink

/-- A schedule used in examples. A proxy is made in direct mode and used; in blink mode thread 0 obtains a block through `GlobalAlloc` and
stores into it; the proxy of thread 1 obtains another block and stores into it; thread 2 is inside `alloc_zeroed`. -/
def gpdemoActs : List GPAct :=
  [.proxy (.spawn 1 0), .proxy (.allocate 1 ⟨40, 8⟩)] ++ gppgoes 1 5 ++ [.glob .blinkMode, .glob (.call 0 (.alloc ⟨10, 2⟩))] ++ gpgoes 0 5 ++
  [.glob (.write 65700 (.raw 7))] ++ [.proxy (.allocate 1 ⟨3, 1⟩), .glob (.write 65610 (.raw 9))] ++
  [.glob (.call 2 (.allocZeroed ⟨4, 4⟩))] ++ gpgoes 2 5

/-- C79: every history of a global allocator with proxies is, seen from its `SyncBlinkAlloc`, a legal history of a `SyncBlinkAlloc` used
directly and through proxies, in the same state, with the same proxies owning the same blocks; each block held by a caller of
`GlobalAlloc` is (the beginning of) a block obtained directly. So C26 to C29, C66 to C78, stated for such histories, hold here too. -/
theorem C79_refines {x0 x : GPS} {K : GPBook} {tr : List (GPAct × Option GPResp)} (h0 : GPStart x0) (h : GPRun x0 GPBook.empty tr x K) :
    ∃ trp P, PStart x0.ps ∧ PRun x0.ps PBook.empty trp x.ps P ∧ Shadow tr trp ∧ P.live = K.live ∧ P.led = K.led ∧ P.pbusy = K.pbusy ∧
      (∀ b ∈ K.blink, ∃ b' ∈ P.direct.owned, b'.addr = b.addr ∧ b'.size = b.size ∧ b'.align = b.align ∧ b.len ≤ b'.len) ∧
      ((∀ t, K.busy t = none) → P.direct.owned.length = K.blink.length ∧ ∀ t, P.direct.busy t = none) := by
  obtain ⟨trp, P, Z, h1, h2, h3⟩ := h.inv h0
  refine ⟨trp, P, h0.pstart, h1, h2, h3.live, h3.led, h3.pbusy, ?_, ?_⟩
  · intro b hb
    obtain ⟨b', _, ⟨s1, s2, s3, s4, _⟩, hb'⟩ := h3.inZ hb
    exact ⟨b', hb', s1.symm, s2.symm, s3.symm, s4⟩
  · intro hq
    obtain ⟨_, q2, q3, _⟩ := h3.quiet hq
    refine ⟨?_, q2⟩
    rw [h3.own.length_eq, List.length_map, ← q3.length_eq, List.length_map]

/-- C79: at every moment of every schedule all blocks in the hands of the program are pairwise disjoint, whether obtained through
`GlobalAlloc` or through any proxies. -/
theorem C79_no_overlap {x0 x : GPS} {K : GPBook} (h : GPReach x0 x K) {ids : List Nat} (hn : ids.Nodup) :
    (K.blink ++ ids.flatMap K.blocks).Pairwise Owned.Apart := by
  obtain ⟨P, Z, hR, ht⟩ := h.inv
  have hap := ht.apart hR hn
  obtain ⟨ts, _, _, h1, _⟩ := ht.fam
  have hap := (((h1.append (.refl (ids.flatMap K.blocks)))).pairwise_iff fun h => Owned.Apart.symm h).mp hap
  rw [List.append_assoc, List.pairwise_append, List.pairwise_append] at hap
  rw [List.pairwise_append]
  exact ⟨hap.1, hap.2.1.2.1, fun a ha b hb => hap.2.2 a ha b (List.mem_append_right _ hb)⟩

/-- C79: each such block is not null, aligned, at least as long as asked for, and lies in memory the `SyncBlinkAlloc` obtained from the
underlying allocator and has not given back. -/
theorem C79_memory {x0 x : GPS} {K : GPBook} (h : GPReach x0 x K) {b : Owned} (hb : b ∈ K.blink ∨ ∃ i, b ∈ K.blocks i) :
    b.addr % b.align = 0 ∧ b.size ≤ b.len ∧ 0 < b.addr ∧
    ∃ B ∈ openBlocks x.g.s.w.log, B ∈ x.g.s.w.held ∧ B.addr ≤ b.addr ∧ b.addr + b.len ≤ B.addr + B.len := by
  obtain ⟨P, Z, hR, ht⟩ := h.inv
  rcases hb with hb | ⟨i, hb⟩
  · obtain ⟨b', _, ⟨s1, s2, s3, s4, s5⟩, hb'⟩ := ht.inZ hb
    obtain ⟨m1, m2, m3, B, hB, hH, m4, m5⟩ := C26_memory hR (.inl hb')
    exact ⟨by rw [s1, s3]; exact m1, s5, by omega, B, hB, hH, by omega, by omega⟩
  · rw [ht.blocks] at hb
    exact C26_memory hR (.inr ⟨i, hb⟩)

/-- C79: no legal action ends in a fault, unless the underlying allocator breaks its contract in that very step (or a debug build meets
the assertion described at `PS.EmptyChunk`, on behalf of a proxy). It can be carried out, unless it is the next step of a thread that
is not inside a call or has to wait, or the creation of a proxy with a hint older than one its thread has seen. -/
theorem C79_no_fault {x0 x : GPS} {K : GPBook} {a : GPAct} (h : GPReach x0 x K) (hl : GPLegal K a) :
    (∃ r x' K', gpstep x a = .ok (some (r, x')) ∧ GPAfter x.g.s.w.mem K a r K' ∧ GPReach x0 x' K') ∨
    (∃ e, gpstep x a = .error e ∧ (BadAnswer x.g.s.w e ∨ ∃ a', a = .proxy a' ∧ x.ps.EmptyChunk a' e)) ∨
    (gpstep x a = .ok none ∧ ((∃ t ch, a = .glob (.go t ch) ∨ a = .proxy (.shared (.go t ch))) ∨
      ∃ i k, a = .proxy (.spawn i k) ∧ x.hist.getD k (x.hist.headD 0) < x.view i)) := by
  obtain ⟨P, Z, hR, ht⟩ := h.inv
  rcases ht.step hR hl with ⟨e, hb, he⟩ | hn | ⟨r, x', he, _, ⟨K', ha⟩, _⟩
  · exact .inr (.inl ⟨e, he, hb⟩)
  · refine .inr (.inr ⟨hn, ?_⟩)
    cases hl with
    | call hl hm hp =>
      obtain ⟨_, _, h1, _⟩ := ht.callStep hR hl hm hp
      rw [gpstep_ok h1] at hn; cases hn
    | go => exact .inl ⟨_, _, .inl rfl⟩
    | write => cases hn
    | pwrite => cases hn
    | reset hl hnl =>
      cases hl with
      | reset hq =>
        obtain ⟨_, _, h1, _⟩ := ht.resetStep hR hq hnl
        rw [gpstep_ok h1] at hn; cases hn
    | blinkMode => cases hn
    | directMode hl hnl =>
      cases hl with
      | directMode hq =>
        obtain ⟨_, _, h1, _⟩ := ht.directStep hR hq hnl
        rw [gpstep_ok h1] at hn; cases hn
    | proxy hp hl hb =>
      rename_i a
      have inner : ∀ {a : PAct}, (∀ t ch, a ≠ .shared (.go t ch)) → gpstep x (.proxy a) = .ok none → pstep x.ps a = .ok none := by
        intro a hne hn
        unfold gpstep at hn
        split at hn
        · rename_i h'; cases h'
        · rename_i t ch h'; cases h'; exact absurd rfl (hne t ch)
        · rename_i h'
          injection h' with h'
          rw [h']
          obtain ⟨y, hy, hn⟩ := ebind_inv hn
          cases y with
          | none => exact hy
          | some z => cases hn
      have ready : ∀ {i}, a.proxy = some i → K.px.Ready i → P.Ready i := fun hi hr =>
        ⟨by rw [ht.live]; exact hr.1, by rw [ht.pbusy]; exact hr.2.1, (ht.busy_none (hb _ hi)).2⟩
      cases hl with
      | call => cases hp
      | go => exact .inl ⟨_, _, .inr rfl⟩
      | write => cases hp
      | pwrite => cases hp
      | sreset h => rcases h with rfl | rfl | rfl <;> cases hp
      | @spawn i k hlv =>
        refine .inr ⟨i, k, rfl, ?_⟩
        have hs := inner (by rintro t ch ⟨⟩) hn
        obtain ⟨KS, cs, pend, hI⟩ := hR.inv
        have hx := hI.px i
        rw [show P.live i = false by rw [ht.live]; exact hlv] at hx
        have hpx : x.ps.px i = none := hx.dead.1
        simp only [pstep] at hs
        rw [hpx] at hs
        dsimp only at hs
        split at hs
        · cases hs
        · rename_i hlt; exact Nat.lt_of_not_le hlt
      | allocate hr => exact absurd (inner (by rintro t ch ⟨⟩) hn) (C72_starts hR (ready rfl hr) (.inl ⟨_, rfl⟩))
      | resize hr => exact absurd (inner (by rintro t ch ⟨⟩) hn) (C72_starts hR (ready rfl hr) (.inr (.inl ⟨_, _, _, rfl⟩)))
      | deallocate hr => exact absurd (inner (by rintro t ch ⟨⟩) hn) (C72_starts hR (ready rfl hr) (.inr (.inr (.inl ⟨_, _, rfl⟩))))
      | reset hr => exact absurd (inner (by rintro t ch ⟨⟩) hn) (C72_starts hR (ready rfl hr) (.inr (.inr (.inr (.inl rfl)))))
      | resetUnchecked hr => exact absurd (inner (by rintro t ch ⟨⟩) hn) (C72_starts hR (ready rfl hr) (.inr (.inr (.inr (.inr (.inl rfl))))))
      | drop hr => exact absurd (inner (by rintro t ch ⟨⟩) hn) (C72_starts hR (ready rfl hr) (.inr (.inr (.inr (.inr (.inr rfl))))))
      | updateMax => cases hp
      | sync => exact absurd (inner (by rintro t ch ⟨⟩) hn) (by rintro ⟨⟩)
  · obtain ⟨h0, tr, hr⟩ := h
    exact .inl ⟨r, x', K', he, ha, h0, _, hr.snoc hl he ha⟩

/-- C79: there is no deadlock: while some thread is inside a call of the global allocator or of its proxy, some thread inside a call can
make its next step. -/
theorem C79_somebody_moves {x0 x : GPS} {K : GPBook} (h : GPReach x0 x K) {t : Nat} (hb : K.busy t ≠ none ∨ K.pbusy t ≠ none) (ch : Choice) :
    ∃ u, (K.busy u ≠ none ∧ gpstep x (.glob (.go u ch)) ≠ .ok none) ∨
      (K.pbusy u ≠ none ∧ gpstep x (.proxy (.shared (.go u ch))) ≠ .ok none) := by
  obtain ⟨P, Z, hR, ht⟩ := h.inv
  have zero_moves : ∀ {u : Nat} {l : Layout} {s : Slice} {k : Nat}, (if k < s.len then
        if x.g.s.w.accessible (s.addr + k) 1 then do
          match ← sstep x.g.s (.write (s.addr + k) (.raw 0)) with
          | none => pure none
          | some (_, s') => pure (some (none, ({ x.g with s := s' } : GSS).setPc u (.zero l s (k + 1))))
        else .error (.ub "invalid write_bytes")
      else pure (some (none, x.g.setPc u (.fin (.allocZeroed l) (.block s)))) : Except Fault (Option (Option GResp × GSS))) ≠ .ok none := by
    intro u l s k hn
    split at hn
    · split at hn
      · cases hn
      · cases hn
    · cases hn
  -- a thread that can move inside the `SyncBlinkAlloc` can move
  have lift : ∀ u, P.Inside u → pstep x.ps (.shared (.go u ch)) ≠ .ok none →
      (K.busy u ≠ none ∧ gpstep x (.glob (.go u ch)) ≠ .ok none) ∨ (K.pbusy u ≠ none ∧ gpstep x (.proxy (.shared (.go u ch))) ≠ .ok none) := by
    intro u hin hne
    cases hu : K.busy u with
    | none =>
      obtain ⟨hpc, hd⟩ := ht.busy_none hu
      have hpb : K.pbusy u ≠ none := by
        rcases hin with hin | hin
        · exact absurd hd hin
        · rw [← ht.pbusy]; exact hin
      refine .inr ⟨hpb, ?_⟩
      simp only [gpstep]
      rw [if_pos hpc]
      intro hn
      obtain ⟨y, hy, hn⟩ := ebind_inv hn
      cases y with
      | none => exact hne hy
      | some z => cases hn
    | some q =>
      refine .inl ⟨by simp, ?_⟩
      have hpb : K.pbusy u = none := ht.one u (by rw [hu]; simp)
      simp only [gpstep, gsstep]
      intro hn
      obtain ⟨y, hy, hn⟩ := ebind_inv hn
      cases y with
      | some z => cases hn
      | none =>
        unfold ggo at hy
        split at hy
        · rename_i hpc
          rw [ht.pc_idle hpc] at hu; cases hu
        · obtain ⟨z, hz, hy⟩ := ebind_inv hy
          cases z with
          | none =>
            refine hne ?_
            simp only [pstep]
            rw [ebind_ok (show sstep x.ps.s (.go u ch) = .ok none from hz)]; rfl
          | some z =>
            obtain ⟨r, s'⟩ := z
            cases r with
            | none => cases hy
            | some r =>
              dsimp only at hy
              split at hy <;> cases hy
        · obtain ⟨z, hz, hy⟩ := ebind_inv hy
          cases hy
        · exact zero_moves hy
        · cases hy
  have toP : P.Inside t ∨ (K.busy t ≠ none ∧ gpstep x (.glob (.go t ch)) ≠ .ok none) := by
    rcases hb with hb | hb
    · cases hd : P.direct.busy t with
      | some q => exact .inl (.inl (by rw [hd]; simp))
      | none =>
        refine .inr ⟨hb, ?_⟩
        obtain ⟨ibz, g1, g2⟩ := ht.thr t
        rw [hd] at g2
        cases g2
        revert g1 hb
        generalize hbz : K.busy t = bz, hpc : x.g.pcs t = pc
        intro hb g1 hn
        simp only [gpstep, gsstep] at hn
        obtain ⟨y, hy, hn⟩ := ebind_inv hn
        cases y with
        | some z => cases hn
        | none =>
          unfold ggo at hy
          rw [hpc] at hy
          cases g1 with
          | idle => exact hb rfl
          | zero => exact zero_moves hy
          | finAlloc => cases hy
          | finAllocErr => cases hy
          | finZeroed => cases hy
          | finZeroedErr => cases hy
          | finDealloc => cases hy
          | finRealloc => cases hy
          | finReallocErr => cases hy
          | dAlloc hm => have := ht.off hm t; rw [hbz] at this; cases this
          | dZeroed hm => have := ht.off hm t; rw [hbz] at this; cases this
          | dDealloc hm => have := ht.off hm t; rw [hbz] at this; cases this
          | dRealloc hm => have := ht.off hm t; rw [hbz] at this; cases this
    · exact .inl (.inr (by rw [ht.pbusy]; exact hb))
  rcases toP with hin | hdone
  · obtain ⟨u, hu, hne⟩ := C72_somebody_moves hR hin ch
    exact ⟨u, lift u hu hne⟩
  · exact ⟨t, .inl hdone⟩

/-- C79: no step of anybody changes a byte of a block in the hands of the program, however obtained, unless it is the owner's store to
that byte; or the reset or drop of the proxy the block was obtained through; or, for blocks obtained through `GlobalAlloc`, a reset of the
global allocator. -/
theorem C79_keeps {x0 x x' : GPS} {K : GPBook} {a : GPAct} {r : Option GPResp} (h : GPReach x0 x K) (hl : GPLegal K a)
    (hs : gpstep x a = .ok (some (r, x'))) {b : Owned} {y : Nat} (hy : b.Has y) (hw : ∀ v, a ≠ .glob (.write y v))
    (hb : (b ∈ K.blink ∧ a ≠ .glob .reset ∧ a ≠ .glob .directMode) ∨
      ∃ i, b ∈ K.blocks i ∧ a ≠ .proxy (.reset i) ∧ a ≠ .proxy (.resetUnchecked i) ∧ a ≠ .proxy (.drop i)) :
    x'.g.s.w.mem y = x.g.s.w.mem y := by
  obtain ⟨P, Z, hR, ht⟩ := h.inv
  rcases ht.step hR hl with ⟨e, _, he⟩ | hn | ⟨r1, x1, he, hr, _⟩
  · rw [he] at hs; cases hs
  · rw [hn] at hs; cases hs
  · rw [he] at hs; cases hs
    refine hr.keep b y hy hw (hb.imp (fun ⟨h1, h2, h3⟩ => ⟨h1, ?_⟩) id)
    rintro a' rfl
    cases a' <;> first | rfl | exact absurd rfl h2 | exact absurd rfl h3

/-- While a thread's call of the global allocator has not returned, the program's book about it stays. -/
theorem GPRun.snap {x1 K1 tr x2 K2} (h : GPRun x1 K1 tr x2 K2) {t : Nat} {q} (hb : K1.busy t = some q)
    (hno : ∀ ch r, (GPAct.glob (.go t ch), some r) ∉ tr) : K2.busy t = some q ∧ K2.snap t = K1.snap t := by
  induction h with
  | nil => exact ⟨hb, rfl⟩
  | @snoc tr x K a r x' K' hr hl hs ha ih =>
    obtain ⟨h1, h2⟩ := ih fun ch r hm => hno ch r (List.mem_append_left _ hm)
    cases ha with
    | proxy => exact ⟨h1, h2⟩
    | @glob a r G ha =>
      have hne : ∀ {u c}, a = .call u c → t ≠ u := by
        rintro u c rfl rfl
        have hb' : K.busy t = none := by
          cases hl with
          | call hl => cases hl <;> assumption
        rw [h1] at hb'; cases hb'
      cases ha with
      | alloc => dsimp only; rw [put_ne _ _ (hne rfl), put_ne _ _ (hne rfl)]; exact ⟨h1, h2⟩
      | allocZeroed => dsimp only; rw [put_ne _ _ (hne rfl), put_ne _ _ (hne rfl)]; exact ⟨h1, h2⟩
      | dealloc => dsimp only; rw [put_ne _ _ (hne rfl), put_ne _ _ (hne rfl)]; exact ⟨h1, h2⟩
      | realloc => dsimp only; rw [put_ne _ _ (hne rfl), put_ne _ _ (hne rfl)]; exact ⟨h1, h2⟩
      | @ret u ch c ob r hb' =>
        have hne : t ≠ u := fun he => by subst he; exact hno ch (.glob r) (by simp)
        dsimp only; rw [put_ne _ _ hne]; exact ⟨h1, h2⟩
      | _ => exact ⟨h1, h2⟩

theorem GPTie.ret_of {p0 x K P Z} (hR : PReach p0 x.ps P) (h : GPTie x K P Z) {t : Nat} {ch : Choice} {c : GCall} {ob : Option Owned} {q : GResp} {x'}
    (hs : gpstep x (.glob (.go t ch)) = .ok (some (some (.glob q), x'))) (hb : K.busy t = some (c, ob)) :
    Returned x'.g.s.w.mem (K.snap t) c ob q := by
  rcases h.step hR (a := .glob (.go t ch)) .go with ⟨e, _, he⟩ | hn | ⟨r1, x1, he, hr, _⟩
  · rw [he] at hs; cases hs
  · rw [hn] at hs; cases hs
  · rw [he] at hs; cases hs
    exact hr.ret t ch c ob q rfl rfl hb

/-- C79: a `realloc` that returns a pointer returns a block holding the old contents as they were when the call was made, as far as both
sizes reach; one that returns null leaves the old block to its owner, with its contents; whatever other threads and proxies do between
call and return. -/
theorem C79_realloc {x0 x x1 x2 x3 : GPS} {K K1 K2 : GPBook} (h : GPReach x0 x K) {t p n q : Nat} {l : Layout}
    (hl : GPLegal K (.glob (.call t (.realloc p l n)))) (hs : gpstep x (.glob (.call t (.realloc p l n))) = .ok (some (none, x1)))
    (ha : GPAfter x.g.s.w.mem K (.glob (.call t (.realloc p l n))) none K1) {tr} (hr : GPRun x1 K1 tr x2 K2)
    (hno : ∀ ch r, (GPAct.glob (.go t ch), some r) ∉ tr) {ch : Choice}
    (hret : gpstep x2 (.glob (.go t ch)) = .ok (some (some (.glob (.ptr q)), x3))) :
    (q ≠ 0 → (∀ i, i < min l.size n → x3.g.s.w.mem (q + i) = x.g.s.w.mem (p + i)) ∧
      ∃ K3, GPReach x0 x3 K3 ∧ K3.cur = granted q ⟨n, l.align⟩ :: K2.cur) ∧
    (q = 0 → ∃ b ∈ K.cur, b.Is p l ∧ (∀ y, b.Has y → x3.g.s.w.mem y = x.g.s.w.mem y) ∧ ∃ K3, GPReach x0 x3 K3 ∧ K3.cur = b :: K2.cur) := by
  obtain ⟨h0, tr0, hr0⟩ := h
  have hr2 := (hr0.snoc hl hs ha).trans hr
  obtain ⟨P, Z, hR, ht⟩ := GPReach.inv ⟨h0, _, hr2⟩
  generalize hrr : (none : Option GPResp) = rr at ha
  cases ha with
  | @glob _ r G hG =>
    cases hG with
    | @realloc _ b _ _ _ ho hi =>
      obtain ⟨hb2, hsn⟩ := hr.snap (t := t) (put_same _ _ _) hno
      dsimp only at hsn
      rw [put_same] at hsn
      have h3 := hr2.snoc .go hret (.glob (r := some (.ptr q)) (.ret hb2))
      have hres := ht.ret_of hR hret hb2
      rw [hsn] at hres
      have hcur : ∀ bs, ({ K2 with toGSBook := { K2.toGSBook with toGBook := K2.addL bs, busy := put K2.busy t none } } : GPBook).cur = bs ++ K2.cur := by
        intro bs
        unfold GBook.cur GBook.addL
        cases hm : K2.blinkMode <;> simp
      refine ⟨fun hq => ⟨hres.1 hq, _, ⟨h0, _, h3⟩, ?_⟩, fun hq => ⟨b, ho, hi, hres.2 hq, _, ⟨h0, _, h3⟩, ?_⟩⟩
      · rw [hcur]; simp [ggets, hq]
      · rw [hcur]; simp [ggets, hq]

/-- C79: when `alloc_zeroed` returns a pointer, its caller then owns a block of the requested layout there, full of zeros; `alloc` likewise
without the zeros. -/
theorem C79_alloc {x0 x x' : GPS} {K : GPBook} (h : GPReach x0 x K) {t q : Nat} {ch : Choice} {c : GCall} {l : Layout}
    {ob : Option Owned} (hc : c = .alloc l ∨ c = .allocZeroed l) (hb : K.busy t = some (c, ob))
    (hs : gpstep x (.glob (.go t ch)) = .ok (some (some (.glob (.ptr q)), x'))) (hq : q ≠ 0) :
    (∃ K', GPReach x0 x' K' ∧ K'.cur = granted q l :: K.cur) ∧ (c = .allocZeroed l → ∀ i, i < l.size → x'.g.s.w.mem (q + i) = .raw 0) := by
  obtain ⟨h0, tr, hr⟩ := h
  obtain ⟨P, Z, hR, ht⟩ := GPReach.inv ⟨h0, _, hr⟩
  refine ⟨⟨_, ⟨h0, _, hr.snoc .go hs (.glob (r := some (.ptr q)) (.ret hb))⟩, ?_⟩, ?_⟩
  · have hg : ggets c ob (.ptr q) = [granted q l] := by
      rcases hc with rfl | rfl <;> simp [ggets, hq]
    dsimp only
    rw [hg]
    unfold GBook.cur GBook.addL
    cases hm : K.blinkMode <;> simp
  · rintro rfl
    exact ht.ret_of hR hs hb hq

/-! ### The counter -/

/-- Blocks that are not empty, apart from each other and below `n` are at most `n`. -/
theorem apart_count {n : Nat} {L : List Owned} (hL : L.Pairwise Owned.Apart) (hb : ∀ b ∈ L, 0 < b.len ∧ b.addr < n) : L.length ≤ n := by
  have hnd : (L.map Owned.addr).Nodup := by
    rw [List.Nodup, List.pairwise_map]
    refine (List.Pairwise.and_mem.mp hL).imp ?_
    rintro a b ⟨ha, hb', hab⟩ he
    have h1 := hb a ha
    have h2 := hb b hb'
    exact hab a.addr ⟨⟨Nat.le_refl _, by omega⟩, by constructor <;> omega⟩
  have := nodup_bound n _ hnd (by
    intro y hy
    obtain ⟨b, hb', rfl⟩ := List.mem_map.mp hy
    exact (hb b hb').2)
  rwa [List.length_map] at this

theorem GPTie.count {p0 x K P Z} (hR : PReach p0 x.ps P) (h : GPTie x K P Z) : K.blink.length + 1 < USIZE := by
  have hap := h.apart hR (ids := []) .nil
  rw [List.flatMap_nil, List.append_nil] at hap
  obtain ⟨ts, _, _, h1, _⟩ := h.fam
  have hap := (h1.pairwise_iff fun h => Owned.Apart.symm h).mp hap
  rw [List.pairwise_append] at hap
  obtain ⟨KS, cs, pend, hI⟩ := hR.inv
  obtain ⟨cs', B, hS⟩ := hI.reach.inv
  have hcnt := apart_count (n := x.ps.s.w.top - 1) (L := K.blink.map fun b => { b with addr := b.addr - 1 }) (by
      rw [List.pairwise_map]
      refine (List.Pairwise.and_mem.mp hap.1).imp ?_
      rintro a b ⟨ha, hb, hab⟩ y ⟨h1, h2⟩
      have p1 : 0 < a.addr := by
        obtain ⟨b', _, hsh, hb'⟩ := h.inZ ha
        have := (C26_memory hR (.inl hb')).2.2.1
        have := hsh.1
        omega
      have p2 : 0 < b.addr := by
        obtain ⟨b', _, hsh, hb'⟩ := h.inZ hb
        have := (C26_memory hR (.inl hb')).2.2.1
        have := hsh.1
        omega
      refine hab (y + 1) ⟨?_, ?_⟩
      · simp only [Owned.Has] at h1 ⊢; omega
      · simp only [Owned.Has] at h2 ⊢; omega) (by
      intro c hc
      obtain ⟨b, hb, rfl⟩ := List.mem_map.mp hc
      obtain ⟨b', _, hsh, hb'⟩ := h.inZ hb
      obtain ⟨_, _, m3, C, _, hC, m4, m5⟩ := C26_memory hR (.inl hb')
      have := hS.arena.held.rng C hC
      have := h.sz b hb
      obtain ⟨s1, s2, s3, s4, s5⟩ := hsh
      exact ⟨by show 0 < b.len; omega, by show b.addr - 1 < _; omega⟩)
  rw [List.length_map] at hcnt
  have := hI.top
  have : HUGE < USIZE := by decide
  omega

/-- C79: with nobody inside a call of the global allocator, the counter of a debug build equals the number of blocks obtained through
`GlobalAlloc` and not given back, whatever proxies there are. -/
theorem C79_counter {x0 x : GPS} {K : GPBook} (h : GPReach x0 x K) (hd : x0.g.s.w.debug = true) (hq : ∀ t, K.busy t = none) :
    x.g.allocations = K.blink.length := by
  obtain ⟨P, Z, hR, ht⟩ := h.inv
  have h1 := (ht.quiet hq).2.2.2
  have h2 : x.g.s.w.debug = true := (hR.debug).trans hd
  rw [if_pos h2, Nat.mod_eq_of_lt (by have := ht.count hR; omega)] at h1
  exact h1

/-- C79: `reset` and `direct_mode`, called with nobody inside a call, panic exactly if this is a debug build and some block obtained
through `GlobalAlloc` is outstanding. Proxies and their blocks make no difference. -/
theorem C79_panics_iff {x0 x : GPS} {K : GPBook} {a : GAct} (h : GPReach x0 x K) (hq : ∀ t, K.busy t = none) (hpq : ∀ t, K.pbusy t = none)
    (ha : a = .reset ∨ a = .directMode) :
    (gpstep x (.glob a) = .ok (some (some (.glob .panicked), x)) ∧ x0.g.s.w.debug = true ∧ K.blink ≠ []) ∨
    ((∃ x', gpstep x (.glob a) = .ok (some (some (.glob .unit), x'))) ∧ ¬ (x0.g.s.w.debug = true ∧ K.blink ≠ [])) := by
  obtain ⟨P, Z, hR, ht⟩ := h.inv
  have hdbg : x.g.s.w.debug = x0.g.s.w.debug := hR.debug
  obtain ⟨_, q2, _, q4⟩ := ht.quiet hq
  have hiff : (x.g.s.w.debug = true ∧ x.g.allocations ≠ 0) ↔ (x0.g.s.w.debug = true ∧ K.blink ≠ []) := by
    rw [hdbg]
    refine and_congr_right fun hd => ?_
    rw [C79_counter h hd hq]
    cases K.blink <;> simp
  by_cases hc : x.g.s.w.debug = true ∧ x.g.allocations ≠ 0
  · left
    have he : x.g.reset = .ok (some (some .panicked, x.g)) := by unfold GSS.reset; rw [if_pos hc]; rfl
    refine ⟨?_, hiff.mp hc⟩
    rcases ha with rfl | rfl
    · exact gpstep_ok (show gsstep x.g .reset = _ from he)
    · exact gpstep_ok (show gsstep x.g .directMode = .ok (some (some .panicked, x.g)) by simp only [gsstep]; rw [ebind_ok' he]; rfl)
  · right
    refine ⟨?_, fun h' => hc (hiff.mpr h')⟩
    obtain ⟨KS, cs, pend, hI⟩ := hR.inv
    obtain ⟨cs', B, hS'⟩ := hI.reach.inv
    have hS : SInv x0.ps.s x.g.s cs' KS B := hS'
    have hkb : ∀ t, KS.busy t = none := by
      intro t
      cases hk : KS.busy t with
      | none => rfl
      | some q =>
        rcases hI.outside.mpr (by rw [hk]; simp : KS.busy t ≠ none) with h1 | h1
        · exact absurd (q2 t) h1
        · exact absurd (by rw [ht.pbusy]; exact hpq t) h1
    have hs : sstep x.g.s .resetUnchecked =
        .ok (some (none, { x.g.s with w := resetWorld x.g.s.w cs', root := rootOf (resetChunks cs'), seen := [] })) := by
      simp only [sstep, resetStep]
      rw [if_pos (hS.lock_free hkb), ebind_ok' (by rw [show x.g.s.root = _ from hS.root]; exact arenaReset_keep hS.arena)]; rfl
    have he : x.g.reset = .ok (some (some .unit, { x.g with s :=
        { x.g.s with w := resetWorld x.g.s.w cs', root := rootOf (resetChunks cs'), seen := [] } })) := by
      unfold GSS.reset; rw [if_neg hc, ebind_ok' hs]; rfl
    rcases ha with rfl | rfl
    · exact ⟨_, gpstep_ok (show gsstep x.g .reset = _ from he)⟩
    · have hd : ∃ g', gsstep x.g .directMode = .ok (some (some .unit, g')) := by
        simp only [gsstep]; rw [ebind_ok' he]; exact ⟨_, rfl⟩
      obtain ⟨g', hd⟩ := hd
      exact ⟨_, gpstep_ok hd⟩

/-- C79, what the debug assertion does not notice: in a debug build a proxy holds a block of 40 bytes; nobody is inside a call;
`reset` succeeds; the next `alloc` is given memory inside that block. (The caller of `reset` is to make sure that there are no proxies, "Safety:
Proxies and allocations are dropped", src/global/sync.rs:333; `assert_eq!(allocations, 0, "Not everything was deallocated")`,
src/global/sync.rs:250-254, only looks for blocks obtained through `GlobalAlloc`.) -/
theorem C79_reset_unnoticed : ∃ x0 x K b x' q, GPReach x0 x K ∧ x0.g.s.w.debug = true ∧ (∀ t, K.busy t = none) ∧ b ∈ K.led 1 ∧
    gpsteps x [.glob .reset, .glob .blinkMode, .glob (.call 0 (.alloc ⟨40, 8⟩)), .glob (.go 0 fresh), .glob (.go 0 fresh), .glob (.go 0 fresh),
        .glob (.go 0 fresh), .glob (.go 0 fresh)] =
      some ([some (.glob .unit), some (.glob .unit), none, none, none, none, none, some (.glob (.ptr q))], x') ∧
    ¬ Owned.Apart b (granted q ⟨40, 8⟩) := by
  obtain ⟨rs, x, K, ts, h0, hr, hfine, hf⟩ := of_gpdemoAt (sizes := [4096]) (debug := true)
    (as := [.proxy (.spawn 1 0), .proxy (.allocate 1 ⟨40, 8⟩)] ++ gppgoes 1 5) (f := fun _ x K ts =>
      decide (ts = []) && decide (⟨65600, 40, 40, 8⟩ ∈ K.led 1) &&
      match gpsteps x [.glob .reset, .glob .blinkMode, .glob (.call 0 (.alloc ⟨40, 8⟩)), .glob (.go 0 fresh), .glob (.go 0 fresh), .glob (.go 0 fresh),
        .glob (.go 0 fresh), .glob (.go 0 fresh)] with
      | some (rs, _) => decide (rs = [some (.glob .unit), some (.glob .unit), none, none, none, none, none, some (.glob (.ptr 65568))])
      | none => false) (by decide +kernel)
  simp only [Bool.and_eq_true, decide_eq_true_eq] at hf
  obtain ⟨⟨rfl, hb⟩, hf⟩ := hf
  split at hf
  · rename_i rs' x' hx
    have := of_decide_eq_true hf
    subst this
    exact ⟨_, x, K, _, x', _, ⟨h0, _, hr⟩, rfl, fun t => hfine.1 t (by simp), hb, hx, fun h => h 65600 (by simp [Owned.Has, granted])⟩
  · cases hf

/-! ### Non-vacuity -/

/-- Non-vacuity of `C79_refines`, `C79_no_overlap`, `C79_memory`, `C79_keeps`, `C79_alloc`, `C79_somebody_moves`: a block obtained
through `GlobalAlloc` and two obtained through a proxy (one of them made before blink mode was entered), with contents, while a thread is
inside `alloc_zeroed`, which then goes on and returns zeros. -/
example : ∃ x0 x K tr, GPStart x0 ∧ GPRun x0 GPBook.empty tr x K ∧ K.blink.length = 1 ∧ (K.led 1).length = 2 ∧ K.live 1 = true ∧
    K.busy 2 = some (.allocZeroed ⟨4, 4⟩, none) ∧ x.g.s.w.mem 65700 = .raw 7 ∧ x.g.s.w.mem 65610 = .raw 9 ∧
    ∃ x1, gpsteps x (gpgoes 2 5) = some ([none, none, none, none, some (.glob (.ptr 65708))], x1) ∧ x1.g.s.w.mem 65708 = .raw 0 := by
  obtain ⟨rs, x, K, ts, h0, hr, hfine, hf⟩ := of_gpdemoAt (sizes := [4096]) (debug := true) (as := gpdemoActs) (f := fun _ x K _ =>
      decide (K.blink.length = 1) && decide ((K.led 1).length = 2) && K.live 1 && decide (K.busy 2 = some (.allocZeroed ⟨4, 4⟩, none)) &&
      decide (x.g.s.w.mem 65700 = .raw 7) && decide (x.g.s.w.mem 65610 = .raw 9) &&
      match gpsteps x (gpgoes 2 5) with
      | some (rs, x1) => decide (rs = [none, none, none, none, some (.glob (.ptr 65708))] ∧ x1.g.s.w.mem 65708 = .raw 0)
      | none => false) (by decide +kernel)
  simp only [Bool.and_eq_true, decide_eq_true_eq] at hf
  obtain ⟨⟨⟨⟨⟨⟨h1, h2⟩, h3⟩, h4⟩, h5⟩, h6⟩, h7⟩ := hf
  split at h7
  · rename_i rs' x1 hx
    obtain ⟨h8, h9⟩ := of_decide_eq_true h7
    subst h8
    exact ⟨_, x, K, _, h0, hr, h1, h2, h3, h4, h5, h6, x1, hx, h9⟩
  · cases h7

/-- For `C79_realloc`: the last step of a `realloc` of thread 0, after a proxy handed out a block and its owner stored into another in the
meantime. -/
example : ∃ x0 x K tr ob, GPStart x0 ∧ GPRun x0 GPBook.empty tr x K ∧ K.busy 0 = some (.realloc 65696 ⟨10, 2⟩ 30, ob) ∧ (K.led 1).length = 3 ∧
    ∃ x1, gpsteps x (gpgoes 0 1) = some ([some (.glob (.ptr 65712))], x1) ∧ x1.g.s.w.mem 65716 = .raw 7 ∧ x1.g.s.w.mem 65610 = .raw 8 := by
  obtain ⟨rs, x, K, ts, h0, hr, hfine, hf⟩ := of_gpdemoAt (sizes := [4096]) (debug := true)
    (as := gpdemoActs ++ gpgoes 2 5 ++ [.glob (.call 0 (.realloc 65696 ⟨10, 2⟩ 30))] ++ gpgoes 0 3 ++
      [.proxy (.allocate 1 ⟨5, 1⟩), .glob (.write 65610 (.raw 8))] ++ gpgoes 0 13) (f := fun _ x K _ =>
      decide ((K.busy 0).map Prod.fst = some (.realloc 65696 ⟨10, 2⟩ 30)) && decide ((K.led 1).length = 3) &&
      match gpsteps x (gpgoes 0 1) with
      | some (rs, x1) => decide (rs = [some (.glob (.ptr 65712))] ∧ x1.g.s.w.mem 65716 = .raw 7 ∧ x1.g.s.w.mem 65610 = .raw 8)
      | none => false) (by decide +kernel)
  simp only [Bool.and_eq_true, decide_eq_true_eq, Option.map_eq_some_iff] at hf
  obtain ⟨⟨⟨⟨c, ob⟩, hb, rfl⟩, h2⟩, h7⟩ := hf
  split at h7
  · rename_i rs' x1 hx
    obtain ⟨h8, h9⟩ := of_decide_eq_true h7
    subst h8
    exact ⟨_, x, K, _, ob, h0, hr, hb, h2, x1, hx, h9⟩
  · cases h7

/-- For `C79_counter` and `C79_panics_iff`: a debug build with a block obtained through `GlobalAlloc` and blocks of a proxy panics; when the former
is given back, `reset` goes through though the proxy still has blocks. -/
example : (∃ x0 x K, GPReach x0 x K ∧ x0.g.s.w.debug = true ∧ K.blink.length = 1 ∧ (K.led 1).length = 1 ∧ (∀ t, K.busy t = none) ∧
      gpsteps x [.glob .reset] = some ([some (.glob .panicked)], x)) ∧
    ∃ x0 x K, GPReach x0 x K ∧ x0.g.s.w.debug = true ∧ K.blink = [] ∧ (K.led 1).length = 1 ∧ K.blinkMode = true ∧ (∀ t, K.busy t = none) ∧
      x.g.allocations = 0 := by
  constructor
  · obtain ⟨rs, x, K, ts, h0, hr, hfine, hf⟩ := of_gpdemoAt (sizes := [4096]) (debug := true)
      (as := gpdemoActs.take 14) (f := fun _ _ K ts => decide (ts = [0]) && decide (K.blink.length = 1) && decide ((K.led 1).length = 1) &&
        (K.busy 0).isNone && decide (∀ t ∈ List.range 8, K.pbusy t = none)) (by decide +kernel)
    simp only [Bool.and_eq_true, decide_eq_true_eq, Option.isNone_iff_eq_none] at hf
    obtain ⟨⟨⟨⟨rfl, h1⟩, h2⟩, h3⟩, h4⟩ := hf
    have hq : ∀ t, K.busy t = none := by
      intro t
      by_cases ht : t = 0
      · subst ht; exact h3
      · exact hfine.1 t (by simpa using ht)
    refine ⟨_, x, K, ⟨h0, _, hr⟩, rfl, h1, h2, hq, ?_⟩
    have hc := C79_counter ⟨h0, _, hr⟩ rfl hq
    have hd : x.g.s.w.debug = true := by
      obtain ⟨P, Z, hR, _⟩ := GPReach.inv ⟨h0, _, hr⟩
      exact hR.debug
    have he : x.g.reset = .ok (some (some .panicked, x.g)) := by
      unfold GSS.reset
      rw [if_pos ⟨hd, by rw [hc, h1]; simp⟩]
      rfl
    simp only [gpsteps]
    rw [gpstep_ok (show gsstep x.g .reset = _ from he)]
    rfl
  · obtain ⟨rs, x, K, ts, h0, hr, hfine, hf⟩ := of_gpdemoAt (sizes := [4096]) (debug := true)
      (as := gpdemoActs.take 14 ++ [.glob (.call 0 (.dealloc 65696 ⟨10, 2⟩))] ++ gpgoes 0 4) (f := fun _ x K ts => decide (ts = [0, 0]) &&
        decide (K.blink = []) && decide ((K.led 1).length = 1) && K.blinkMode && (K.busy 0).isNone) (by decide +kernel)
    simp only [Bool.and_eq_true, decide_eq_true_eq, Option.isNone_iff_eq_none] at hf
    obtain ⟨⟨⟨⟨rfl, h1⟩, h2⟩, h3⟩, h4⟩ := hf
    have hq : ∀ t, K.busy t = none := by
      intro t
      by_cases ht : t = 0
      · subst ht; exact h4
      · exact hfine.1 t (by simpa using ht)
    exact ⟨_, x, K, ⟨h0, _, hr⟩, rfl, h1, h2, h3, hq, by rw [C79_counter ⟨h0, _, hr⟩ rfl hq, h1]; rfl⟩

end Blink
