import Verif.Proofs.HBCore
import Verif.Spec.ProxyHB
import Verif.Props.ProxyDRF
/-
  The invariant behind the absence of data races with proxies: which accesses of the proxies' chunks happen before what.
-/
namespace Blink

/-! ### Code that touches a byte -/

theorem PS.poke_self (ps : PS) (x : Nat) : ps.poke x (ps.s.w.mem x) = ps := by
  have : (fun y => if y = x then ps.s.w.mem x else ps.s.w.mem y) = ps.s.w.mem := by
    funext y
    split
    · rename_i h; rw [h]
    · rfl
  show ({ ps with s := { ps.s with w := { ps.s.w with mem := fun y => if y = x then ps.s.w.mem x else ps.s.w.mem y } } } : PS) = ps
  rw [this]

theorem TouchesBy.of_changed {f : PS → PRes} {ps r ps' x} (h : f ps = .ok (some (r, ps'))) (hm : ps'.s.w.mem x ≠ ps.s.w.mem x) :
    TouchesBy f ps x := by
  refine ⟨ps.s.w.mem x, fun he => hm ?_⟩
  rw [PS.poke_self, h] at he
  simp only [ppokeRes, Except.ok.injEq, Option.some.injEq, Prod.mk.injEq, true_and] at he
  exact (congrArg (fun q : PS => q.s.w.mem x) he).trans (ps'.s.w.poke_mem_eq x _)

theorem WritesBy.touches {f : PS → PRes} {ps x} (h : WritesBy f ps x) : TouchesBy f ps x := by
  obtain ⟨v, r, s', hs, hv⟩ := h
  refine ⟨v, fun he => hv ?_⟩
  rw [hs] at he
  generalize f ps = o at he
  match o, he with
  | .ok (some (r1, s1)), he =>
    simp only [ppokeRes, Except.ok.injEq, Option.some.injEq, Prod.mk.injEq] at he
    rw [he.2]
    exact s1.s.w.poke_mem_eq x v

/-! ### Events -/

section
variable {h h' : HB} {i : Nat} {f : PS → PRes} {ps : PS} {G : Nat → Prop} {r : Option Resp}

theorem HB.Own.pastOld (hh : h.Own i f ps G r h') {n e} (hn : n < h.clock) : h'.past n e ↔ h.past n e := by
  rw [hh.past, if_neg (by omega)]

theorem HB.Own.pastNew (hh : h.Own i f ps G r h') {e} : h'.past h.clock e ↔ h.view i e := by
  rw [hh.past, if_pos rfl]

theorem HB.Own.wf (hh : h.Own i f ps G r h') (w : h.WF) : h'.WF := by
  have up : ∀ {e}, e < h.clock → e < h'.clock := by intro e he; rw [hh.clock]; omega
  have here : h.clock < h'.clock := by rw [hh.clock]; omega
  refine ⟨?_, ?_, ?_, ?_, ?_, ?_, ?_, ?_, ?_, ?_, ?_, ?_⟩
  · intro u e he
    rcases (hh.view u e).mp he with he | ⟨_, rfl⟩
    · exact up (w.view _ _ he)
    · exact here
  · exact fun e he => up (w.lockR e ((hh.lockR e).mp he))
  · exact fun e he => up (w.lockW e ((hh.lockW e).mp he))
  · intro x
    by_cases hg : G x
    · rw [(hh.since x).1 hg]; exact here
    · rw [(hh.since x).2 hg]; exact up (w.since x)
  · intro e he
    rcases (hh.rets e).mp he with he | ⟨rfl, _⟩
    · exact up (w.rets e he)
    · exact here
  · rw [hh.epoch]; exact up w.epoch
  · exact fun x e he => up (w.mine x e ((hh.mine x e).mp he))
  · exact fun x e he => up (w.atoms x e ((hh.atoms x e).mp he))
  · exact fun x e h1 h2 => w.plain x e ((hh.mine x e).mp h1) ((hh.atoms x e).mp h2)
  · intro u e e' h1 h2
    rcases (hh.view u e).mp h1 with h1 | ⟨rfl, rfl⟩
    · exact (hh.view u e').mpr (.inl (w.viewC _ _ _ h1 ((hh.pastOld (w.view _ _ h1)).mp h2)))
    · exact (hh.view u e').mpr (.inl (hh.pastNew.mp h2))
  · intro e e' h1 h2
    have h1 := (hh.lockR e).mp h1
    exact (hh.lockR e').mpr (w.lockRC _ _ h1 ((hh.pastOld (w.lockR _ h1)).mp h2))
  · intro e e' h1 h2
    have h1 := (hh.lockW e).mp h1
    exact (hh.lockW e').mpr (w.lockWC _ _ h1 ((hh.pastOld (w.lockW _ h1)).mp h2))

theorem HB.Own.local (hh : h.Own i f ps G r h') (w : h.WF) : h.Local i (TouchesBy f ps) h' where
  wf := hh.wf w
  mono := fun u e hv => (hh.view u e).mpr (.inl hv)
  now := (hh.view _ _).mpr (.inr ⟨rfl, rfl⟩)
  past := fun _ _ hn => hh.pastOld hn
  lockR := hh.lockR
  lockW := hh.lockW
  reads := fun x e he => (hh.reads x e).mp he
  writes := fun x e he => ((hh.writes x e).mp he).imp_right fun h => ⟨h.1, h.2.touches⟩
  atoms := fun x e he => (hh.atoms x e).mp he
  epoch := hh.epoch

end

/-- What matters of an event of identity `t` that is not a reset: it may access the bytes `T`, forgets about those in `N`, gives out `G`. -/
structure HB.Ev (h : HB) (t : Nat) (T N G : Nat → Prop) (ret : Prop) (h' : HB) : Prop where
  clock : h'.clock = h.clock + 1
  mono : ∀ u e, h.view u e → h'.view u e
  now : h'.view t h.clock
  pastOld : ∀ n e, n < h.clock → (h'.past n e ↔ h.past n e)
  pastNew : ∀ e, h.view t e → h'.past h.clock e
  acc : ∀ x e, h'.Acc x e → h.Acc x e ∧ ¬ N x ∨ e = h.clock ∧ T x
  mine : ∀ x e, h.mine x e → ¬ N x → h'.mine x e
  since : ∀ x, (G x → h'.since x = h.clock) ∧ (¬ G x → h'.since x = h.since x)
  rets : ∀ e, h.rets e → h'.rets e
  ret : ret → h'.rets h.clock
  epoch : h'.epoch = h.epoch

theorem HB.Step.ev {h h' : HB} {s s' : SS} {K : Book} {t a r} (hh : h.Step s K t a r s' h') (ha : a.resets = false) :
    h.Ev t (Touches s a) (NewMem s s') (fun x => Gives K r x a) (r ≠ none) h' where
  clock := hh.clock
  mono := fun _ _ hv => hh.mono hv
  now := hh.now
  pastOld := fun _ _ hn => hh.pastOld hn
  pastNew := fun _ he => hh.pastNew.mpr (.inl he)
  acc := fun _ _ he => hh.acc he
  mine := fun x e h1 h2 => (hh.mine x e).mpr (.inl ⟨h1, h2⟩)
  since := hh.since
  rets := fun e he => (hh.rets e).mpr (.inl he)
  ret := fun hr => (hh.rets _).mpr (.inr ⟨rfl, hr⟩)
  epoch := by rw [hh.epoch, ha]; rfl

theorem HB.Own.ev {h h' : HB} {i f ps G r} (hh : h.Own i f ps G r h') (w : h.WF) :
    h.Ev i (TouchesBy f ps) (fun _ => False) G (r ≠ none) h' where
  clock := hh.clock
  mono := (hh.local w).mono
  now := (hh.local w).now
  pastOld := fun _ _ hn => hh.pastOld hn
  pastNew := fun _ he => hh.pastNew.mpr he
  acc := fun _ _ he => ((hh.local w).acc he).imp_left fun h => ⟨h, id⟩
  mine := fun x e h1 _ => (hh.mine x e).mpr h1
  since := hh.since
  rets := fun e he => (hh.rets e).mpr (.inl he)
  ret := fun hr => (hh.rets _).mpr (.inr ⟨rfl, hr⟩)
  epoch := hh.epoch

theorem HB.read_ev {h : HB} (w : h.WF) (t x : Nat) : h.Ev t (· = x) (fun _ => False) (fun _ => False) False (h.read t x) where
  clock := rfl
  mono := (read_local w t x).mono
  now := (read_local w t x).now
  pastOld := (read_local w t x).past
  pastNew := fun e he => by
    show (if h.clock = h.clock then h.view t e else _)
    rw [if_pos rfl]; exact he
  acc := fun _ _ he => ((read_local w t x).acc he).imp_left fun h => ⟨h, id⟩
  mine := fun _ _ h1 _ => .inl h1
  since := fun _ => ⟨fun h => h.elim, fun _ => rfl⟩
  rets := fun _ h => h
  ret := fun h => h.elim
  epoch := rfl

/-! ### The invariant -/

/-- Somebody holds the block. -/
def PBook.Has (K : PBook) (b : Owned) : Prop := b ∈ K.direct.owned ∨ ∃ i, b ∈ K.led i

/-- What is known about the accesses of the bytes outside the shared allocator; `R i` are the bytes of proxy `i`. -/
structure HB.PMem (h : HB) (K : PBook) (R : Nat → Nat → Prop) : Prop where
  prox : ∀ i x e, R i x → h.Acc x e → h.view i e ∨ ∃ b ∈ K.led i, b.Has x ∧ h.mine x e ∧ h.since x < e
  own : ∀ b x e, K.Has b → b.Has x → h.Acc x e → e = h.since x ∨ h.past (h.since x) e ∨ h.mine x e ∧ h.since x < e
  all : ∀ x e, h.Acc x e → h.mine x e ∨ (∃ n, h.rets n ∧ (e = n ∨ h.past n e)) ∨ e = h.epoch ∨ h.past h.epoch e ∨
    ∃ u, K.Inside u ∧ h.view u e
  known : ∀ i, K.live i = true → h.view i h.epoch

theorem HB.PMem.advance {h h' : HB} {K K' : PBook} {R R' : Nat → Nat → Prop} {t : Nat} {T N G : Nat → Prop} {ret : Prop}
    (hm : h.PMem K R) (w : h.WF) (hh : h.Ev t T N G ret h')
    (hreg : ∀ i x, i ≠ t → R' i x → R i x) (hled : ∀ i, i ≠ t → ∀ b ∈ K.led i, b ∈ K'.led i)
    (hT : ∀ i x, i ≠ t → R' i x → T x → h'.mine x h.clock ∧ ∃ b ∈ K'.led i, b.Has x)
    (hG : ∀ i x, i ≠ t → R' i x → ¬ G x)
    (hprox : ∀ x e, R' t x → h.Acc x e → ¬ N x → h.view t e ∨ ∃ b ∈ K'.led t, b.Has x ∧ h.mine x e ∧ h.since x < e ∧ ¬ G x)
    (hown : ∀ b x, K'.Has b → b.Has x → (G x ∧ ∀ e, h.Acc x e → ¬ N x → h.view t e) ∨
      (¬ G x ∧ (∃ b0, K.Has b0 ∧ b0.Has x) ∧ (T x → h'.mine x h.clock)))
    (hall : ∀ x, T x → h'.mine x h.clock ∨ K'.Inside t ∨ ret)
    (hin : ∀ u, K.Inside u → K'.Inside u ∨ u = t ∧ ret) (hlive : ∀ i, K'.live i = true → K.live i = true) : h'.PMem K' R' := by
  refine ⟨?_, ?_, ?_, ?_⟩
  · intro i x e hx he
    by_cases hi : i = t
    · subst hi
      rcases hh.acc x e he with ⟨he, hn⟩ | ⟨rfl, _⟩
      · rcases hprox x e hx he hn with h1 | ⟨b, h1, h2, h3, h4, h5⟩
        · exact .inl (hh.mono _ _ h1)
        · exact .inr ⟨b, h1, h2, hh.mine _ _ h3 hn, by rw [(hh.since x).2 h5]; exact h4⟩
      · exact .inl hh.now
    · have hg := hG i x hi hx
      rcases hh.acc x e he with ⟨he, hn⟩ | ⟨rfl, ht⟩
      · rcases hm.prox i x e (hreg i x hi hx) he with h1 | ⟨b, h1, h2, h3, h4⟩
        · exact .inl (hh.mono _ _ h1)
        · exact .inr ⟨b, hled i hi b h1, h2, hh.mine _ _ h3 hn, by rw [(hh.since x).2 hg]; exact h4⟩
      · obtain ⟨h1, b, h2, h3⟩ := hT i x hi hx ht
        exact .inr ⟨b, h2, h3, h1, by rw [(hh.since x).2 hg]; exact w.since x⟩
  · intro b x e hb hx he
    rcases hown b x hb hx with ⟨hg, hv⟩ | ⟨hg, ⟨b0, h1, h2⟩, h3⟩
    · rw [(hh.since x).1 hg]
      rcases hh.acc x e he with ⟨he, hn⟩ | ⟨rfl, _⟩
      · exact .inr (.inl (hh.pastNew e (hv e he hn)))
      · exact .inl rfl
    · rw [(hh.since x).2 hg]
      rcases hh.acc x e he with ⟨he, hn⟩ | ⟨rfl, ht⟩
      · rcases hm.own b0 x e h1 h2 he with h4 | h4 | ⟨h4, h5⟩
        · exact .inl h4
        · exact .inr (.inl ((hh.pastOld _ _ (w.since x)).mpr h4))
        · exact .inr (.inr ⟨hh.mine _ _ h4 hn, h5⟩)
      · exact .inr (.inr ⟨h3 ht, w.since x⟩)
  · intro x e he
    rw [hh.epoch]
    rcases hh.acc x e he with ⟨he, hn⟩ | ⟨rfl, ht⟩
    · rcases hm.all x e he with h1 | ⟨n, h1, h2⟩ | h1 | h1 | ⟨u, h1, h2⟩
      · exact .inl (hh.mine _ _ h1 hn)
      · exact .inr (.inl ⟨n, hh.rets n h1, h2.imp_right (hh.pastOld _ _ (w.rets n h1)).mpr⟩)
      · exact .inr (.inr (.inl h1))
      · exact .inr (.inr (.inr (.inl ((hh.pastOld _ _ w.epoch).mpr h1))))
      · rcases hin u h1 with h3 | ⟨rfl, h3⟩
        · exact .inr (.inr (.inr (.inr ⟨u, h3, hh.mono _ _ h2⟩)))
        · exact .inr (.inl ⟨h.clock, hh.ret h3, .inr (hh.pastNew e h2)⟩)
    · rcases hall x ht with h1 | h1 | h1
      · exact .inl h1
      · exact .inr (.inr (.inr (.inr ⟨t, h1, hh.now⟩)))
      · exact .inr (.inl ⟨h.clock, hh.ret h1, .inl rfl⟩)
  · intro i hi
    rw [hh.epoch]
    exact hh.mono _ _ (hm.known i (hlive i hi))

theorem HB.PMem.weaken {h : HB} {K K' : PBook} {R R' : Nat → Nat → Prop} (hm : h.PMem K R) (hreg : ∀ i x, R' i x → R i x)
    (hD : K'.direct = K.direct) (hl : K'.led = K.led) (hb : K'.pbusy = K.pbusy) (hk : ∀ i, K'.live i = true → h.view i h.epoch) :
    h.PMem K' R' := by
  have hH : ∀ b, K'.Has b → K.Has b := by
    intro b hb
    unfold PBook.Has at hb ⊢
    rwa [hD, hl] at hb
  have hI : ∀ u, K.Inside u → K'.Inside u := by
    intro u hu
    unfold PBook.Inside at hu ⊢
    rwa [hD, hb]
  refine ⟨fun i x e h1 h2 => ?_, fun b x e h1 => hm.own b x e (hH b h1), fun x e he => ?_, hk⟩
  · rw [hl]; exact hm.prox i x e (hreg i x h1) h2
  · rcases hm.all x e he with h1 | h1 | h1 | h1 | ⟨u, h1, h2⟩
    · exact .inl h1
    · exact .inr (.inl h1)
    · exact .inr (.inr (.inl h1))
    · exact .inr (.inr (.inr (.inl h1)))
    · exact .inr (.inr (.inr (.inr ⟨u, hI u h1, h2⟩)))

theorem HB.PMem.sync {h : HB} {K : PBook} {R : Nat → Nat → Prop} (hm : h.PMem K R) (t u : Nat) : (h.sync t u).PMem K R := by
  refine ⟨fun i x e h1 h2 => (hm.prox i x e h1 h2).imp_left .inl, hm.own, fun x e he => ?_, fun i hi => .inl (hm.known i hi)⟩
  rcases hm.all x e he with h1 | h1 | h1 | h1 | ⟨v, h1, h2⟩
  · exact .inl h1
  · exact .inr (.inl h1)
  · exact .inr (.inr (.inl h1))
  · exact .inr (.inr (.inr (.inl h1)))
  · exact .inr (.inr (.inr (.inr ⟨v, h1, .inl h2⟩)))

/-- Somebody who may access a byte of a block for writing has seen all accesses to it. -/
theorem HB.PMem.owns {h : HB} {K R} (hm : h.PMem K R) (w : h.WF) {b} (hb : K.Has b) {x} (hx : b.Has x) {t}
    (ho : h.Owns t x true) {e} (he : h.Acc x e) : h.view t e := by
  rcases hm.own b x e hb hx he with rfl | h1 | ⟨h1, h2⟩
  · exact ho.1
  · exact w.viewC _ _ _ ho.1 h1
  · exact ho.2 e h2 h1 (.inl rfl)

/-- Somebody who may access a byte of a block for reading has seen all writes and atomic accesses to it. -/
theorem HB.PMem.ownsR {h : HB} {K R} (hm : h.PMem K R) (w : h.WF) {b} (hb : K.Has b) {x} (hx : b.Has x) {t}
    (ho : h.Owns t x false) {e} (he : h.writes x e ∨ h.atoms x e) : h.view t e := by
  rcases hm.own b x e hb hx (.inr he) with rfl | h1 | ⟨h1, h2⟩
  · exact ho.1
  · exact w.viewC _ _ _ ho.1 h1
  · exact ho.2 e h2 h1 (.inr (he.resolve_right (w.plain x e h1)))

/-- Whoever resets has seen all accesses. -/
theorem HB.PMem.resetter {h : HB} {K R} (hm : h.PMem K R) (w : h.WF) (hq : ∀ u, ¬ K.Inside u) {t}
    (hd : h.view t h.epoch ∧ (∀ e, h.rets e → h.view t e) ∧ ∀ x e, h.mine x e → h.view t e) {x e} (he : h.Acc x e) : h.view t e := by
  obtain ⟨d1, d2, d3⟩ := hd
  rcases hm.all x e he with h1 | ⟨n, h1, rfl | h2⟩ | rfl | h1 | ⟨u, h1, _⟩
  · exact d3 x e h1
  · exact d2 _ h1
  · exact w.viewC _ _ _ (d2 n h1) h2
  · exact d1
  · exact w.viewC _ _ _ d1 h1
  · exact absurd h1 (hq u)

/-! ### Chunks of proxies -/

/-- Bytes of the chunks of a proxy, of those in use and of those being given back. -/
def Reg (cs pend : Nat → List Chunk) (i x : Nat) : Prop := InCs (cs i ++ pend i) x

theorem inCs_span {cs : List Chunk} {x : Nat} : InCs cs x ↔ ∃ q ∈ cs.map Chunk.span, q.1 ≤ x ∧ x < q.1 + q.2 := by
  constructor
  · rintro ⟨c, hc, h1, h2⟩
    exact ⟨c.span, List.mem_map_of_mem hc, h1, by simp only [Chunk.span]; omega⟩
  · rintro ⟨q, hq, h1, h2⟩
    obtain ⟨c, hc, rfl⟩ := List.mem_map.mp hq
    simp only [Chunk.span] at h1 h2
    exact ⟨c, hc, h1, by omega⟩

theorem reg_sub {ps K KS cs pend a cs' KS' pend'} (hc : CsAfter ps a cs cs') (hk : KAfter ps K KS cs pend a KS' pend') {j x}
    (hx : Reg cs' pend' j x) :
    Reg cs pend j x ∨ ∃ q ∈ ps.chunksAfter a j ((cs j).map Chunk.span), q ∉ (cs j).map Chunk.span ∧ q.1 ≤ x ∧ x < q.1 + q.2 := by
  obtain ⟨c, hc', h1⟩ := hx
  rcases List.mem_append.mp hc' with hc' | hc'
  · have : InCs (cs' j) x := ⟨c, hc', h1⟩
    rw [inCs_span, hc j] at this
    obtain ⟨q, hq, h2⟩ := this
    by_cases hm : q ∈ (cs j).map Chunk.span
    · exact .inl (InCs.left (inCs_span.mpr ⟨q, hm, h2⟩))
    · exact .inr ⟨q, hq, hm, h2⟩
  · left
    rcases hk with ⟨i, _, hk⟩ | ⟨_, hk, _⟩
    · by_cases hj : j = i
      · subst hj; exact ⟨c, hk.back c hc', h1⟩
      · rw [hk.keep j hj] at hc'
        exact ⟨c, List.mem_append_right _ hc', h1⟩
    · rw [hk j] at hc'
      exact ⟨c, List.mem_append_right _ hc', h1⟩

/-- Calls of proxies add no chunks. -/
theorem chunksAfter_own {ps : PS} {a : PAct} (ha : ∀ t ch, a ≠ .shared (.go t ch)) {j L q} (h : q ∈ ps.chunksAfter a j L) : q ∈ L := by
  unfold PS.chunksAfter at h
  split at h
  · split at h
    · exact List.mem_of_mem_take h
    · exact h
  · split at h
    · exact List.mem_of_mem_take h
    · exact h
  · split at h
    · cases h
    · exact h
  · exact absurd rfl (ha _ _)
  · exact h

theorem reg_own {ps K KS cs pend a cs' KS' pend'} (hc : CsAfter ps a cs cs') (hk : KAfter ps K KS cs pend a KS' pend')
    (ha : ∀ t ch, a ≠ .shared (.go t ch)) {j x} (hx : Reg cs' pend' j x) : Reg cs pend j x := by
  rcases reg_sub hc hk hx with h | ⟨q, h1, h2, _⟩
  · exact h
  · exact absurd (chunksAfter_own ha h1) h2

theorem PInv.after {p0 ps K KS cs pend} (h : PInv p0 ps K KS cs pend) {a r ps' K'} (hl : PLegal K a)
    (hs : pstep ps a = .ok (some (r, ps'))) (ha : PAfter ps.s.w.mem K a r K') :
    ∃ KS' cs' pend', PInv p0 ps' K' KS' cs' pend' ∧ PEff ps K cs pend a r ps' ∧ CsAfter ps a cs cs' ∧ KAfter ps K KS cs pend a KS' pend' := by
  rcases h.step hl with ⟨e, _, he⟩ | he | ⟨r', ps1, he, hE, hK⟩
  · rw [he] at hs; cases hs
  · rw [he] at hs; cases hs
  · rw [he] at hs
    injection hs with hs; injection hs with hs; injection hs with h1 h2
    subst h1 h2
    obtain ⟨KS', cs', pend', g1, g2, g3⟩ := hK K' ha
    exact ⟨KS', cs', pend', g1, hE, g2, g3⟩

/-- All there is to know. -/
structure PHInv (p0 ps : PS) (K : PBook) (h : HB) (KS : Book) (cs pend : Nat → List Chunk) : Prop where
  inv : PInv p0 ps K KS cs pend
  core : h.Core ps.s KS
  mem : h.PMem K (Reg cs pend)

/-- For some books. -/
def PHOk (p0 ps : PS) (K : PBook) (h : HB) : Prop := ∃ KS cs pend, PHInv p0 ps K h KS cs pend

theorem PHOk.start {p0 : PS} (h0 : PStart p0) (t0 : Nat) : PHOk p0 p0 PBook.empty (HB.start t0) := by
  refine ⟨_, _, _, h0.inv, .start h0.shared t0, ?_⟩
  have hn : ∀ x e, ¬ (HB.start t0).Acc x e := by rintro x e (h | h | h) <;> exact h
  exact ⟨fun _ x e _ h => (hn x e h).elim, fun _ x e _ _ h => (hn x e h).elim, fun x e h => (hn x e h).elim,
    fun i hi => by cases hi⟩

theorem PInv.regOwned {p0 ps K KS cs pend} (h : PInv p0 ps K KS cs pend) {i x} (hx : Reg cs pend i x) : ∃ o ∈ KS.owned, o.Has x := by
  obtain ⟨b, hb, hx⟩ := h.inCs hx
  exact ⟨b, h.tiles.mem (i := i) hb, hx⟩

theorem PInv.hasOwned {p0 ps K KS cs pend} (h : PInv p0 ps K KS cs pend) {b x} (hb : K.Has b) (hx : b.Has x) : ∃ o ∈ KS.owned, o.Has x := by
  rcases hb with hb | ⟨i, hb⟩
  · exact ⟨b, h.tiles.memD hb, hx⟩
  · exact h.regOwned (h.led_inCs (.inl hb) hx)

/-- A step inside the allocator touches no block that was given out. -/
theorem SInv.goTouch {s0 s cs K B} (hi : SInv s0 s cs K B) {t ch x} (h : Touches s (.go t ch) x) {o} (ho : o ∈ K.owned) : ¬ o.Has x := by
  intro hx
  have hu := hi.used (hi.ownedUsed ho hx)
  rcases (hi.access h).2 with ⟨_, h2, h3, h4⟩ | ⟨_, h2, h3, h4⟩ | ⟨_, h2, _⟩ | ⟨_, b, h2, h3⟩
  · have := hu.2 h2; omega
  · have := hu.2 h2; omega
  · exact h2 hu.1
  · exact hi.blkOwned h2 h3 ho hx

/-- A step inside the shared allocator that does not return. -/
theorem PInv.goInside {p0 ps K KS cs pend} (h : PInv p0 ps K KS cs pend) {t ch s'} (hs : sstep ps.s (.go t ch) = .ok (some (none, s'))) :
    PInv p0 { ps with s := s' } K KS cs pend := by
  have hfr : ∀ o ∈ KS.owned, ∀ x, o.Has x → s'.w.mem x = ps.s.w.mem x :=
    fun o ho x hx => C23_frame h.reach .go hs ho hx (by simp) (by simp)
  have hreach : SReach p0.s s' KS := by
    obtain ⟨h0, tr, hr⟩ := h.reach
    exact ⟨h0, _, hr.snoc .go hs .inside⟩
  refine ⟨hreach, ?_, h.hist, h.tiles, ?_, h.snap⟩
  · show s'.w.top ≤ _
    rw [hreach.top, ← h.reach.top]; exact h.top
  · intro u
    refine (h.px u).frame (hreach.top.trans h.reach.top.symm) ?_
    intro x hx
    obtain ⟨o, ho, hox⟩ := h.inCs hx
    exact hfr o (h.tiles.mem (i := u) ho) x hox

end Blink
