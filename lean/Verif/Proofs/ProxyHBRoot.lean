import Verif.Proofs.HBRoot
import Verif.Proofs.ProxyHBRun
/-
  Happens-before for the accesses of `Inner::root`, with proxies: their own code has no access to it.
-/
namespace Blink

/-- The code gives the same, up to the root. -/
theorem prerootRes_bind {α} (v : Nat) {x : Except Fault α} {f g : α → PRes} (h : ∀ a, f a = prerootRes v (g a)) :
    (x >>= f) = prerootRes v (x >>= g) := by
  cases x with
  | error e => rfl
  | ok a => exact h a

theorem PS.answer_reroot (ps : PS) (i a w r v) : (ps.reroot v).answer i a w r = prerootRes v (ps.answer i a w r) := rfl

theorem PS.ask_reroot (ps : PS) (i a w c pc v) : (ps.reroot v).ask i a w c pc = prerootRes v (ps.ask i a w c pc) := by
  unfold PS.ask
  by_cases h : ps.s.pcs i = .idle
  · rw [if_pos h, if_pos (show (ps.reroot v).s.pcs i = .idle from h)]; rfl
  · rw [if_neg h, if_neg (show ¬ (ps.reroot v).s.pcs i = .idle from h)]; rfl

theorem PS.freeNext_reroot (ps : PS) (i a c w v) : (ps.reroot v).freeNext i a c w = prerootRes v (ps.freeNext i a c w) := by
  unfold PS.freeNext
  split
  · rfl
  · exact prerootRes_bind v fun _ => prerootRes_bind v fun _ => prerootRes_bind v fun _ => PS.ask_reroot ..

theorem PS.resume_reroot (ps : PS) (i a r pc v) : (ps.reroot v).resume i a r pc = prerootRes v (ps.resume i a r pc) := by
  cases pc with
  | idle => rfl
  | alloc l =>
    cases r with
    | block b => exact prerootRes_bind v fun _ => rfl
    | unit => rfl
    | err => rfl
  | resize p old new =>
    cases r with
    | block b => exact prerootRes_bind v fun _ => prerootRes_bind v fun _ => rfl
    | unit => rfl
    | err => rfl
  | chain next => exact PS.freeNext_reroot ..

theorem pstep_reroot (ps : PS) {a : PAct} {i : Nat} (hi : a.proxy = some i) (v : Nat) : pstep (ps.reroot v) a = prerootRes v (pstep ps a) := by
  have hpx : (ps.reroot v).px = ps.px := rfl
  cases a with
  | shared a => cases hi
  | spawn j k => cases hi
  | updateMax t v => cases hi
  | sync t u => cases hi
  | allocate j l =>
    simp only [pstep, hpx]
    split
    · refine prerootRes_bind v fun q => ?_
      obtain ⟨o, w⟩ := q
      cases o with
      | some b => rfl
      | none =>
        refine prerootRes_bind v fun q => ?_
        obtain ⟨o, w⟩ := q
        cases o with
        | none => rfl
        | some n => exact PS.ask_reroot ..
    · rfl
  | resize j p old new =>
    simp only [pstep, hpx]
    split
    · refine prerootRes_bind v fun q => ?_
      obtain ⟨o, w⟩ := q
      cases o with
      | some b => rfl
      | none =>
        refine prerootRes_bind v fun q => ?_
        obtain ⟨o, w⟩ := q
        cases o with
        | none => rfl
        | some n => exact PS.ask_reroot ..
    · rfl
  | deallocate j p n =>
    simp only [pstep, hpx]
    split
    · exact prerootRes_bind v fun _ => rfl
    · rfl
  | reset j =>
    simp only [pstep, hpx]
    split
    · exact prerootRes_bind v fun _ => prerootRes_bind v fun _ => rfl
    · rfl
  | resetUnchecked j =>
    simp only [pstep, hpx]
    split
    · split
      · rfl
      · exact prerootRes_bind v fun _ => PS.freeNext_reroot ..
    · rfl
  | drop j =>
    simp only [pstep, hpx]
    split
    · exact prerootRes_bind v fun _ => prerootRes_bind v fun _ => prerootRes_bind v fun _ => rfl
    · rfl

/-- Code of a proxy. -/
theorem HB.RootInv.own {h h' : HB} {s s' : SS} {In In' : Nat → Prop} {i : Nat} {f ps G r} (hi : h.RootInv s In) (w : h.WF)
    (hh : h.Own i f ps G r h') (hf : ¬ TouchesRootBy f ps) (hrd : s'.readers = s.readers) (hwr : s'.writer = s.writer)
    (hin : ∀ u, In u → In' u ∨ u = i ∧ r ≠ none) : h'.RootInv s' In' := by
  refine hi.other (ret := r ≠ none) w ?_ ?_ (fun u e h => (hh.view u e).mpr (.inl h)) ?_ ?_ (fun e h => (hh.lockR e).mpr h) (fun e h => (hh.lockW e).mpr h)
    (fun e h => (hh.rets e).mpr (.inl h)) (fun h => (hh.rets _).mpr (.inr ⟨rfl, h⟩)) hh.epoch hrd hwr hin
  · intro e he
    rcases (hh.rootR e).mp he with h1 | ⟨_, h1⟩
    · exact h1
    · exact absurd h1 hf
  · intro e he
    rcases (hh.rootW e).mp he with h1 | ⟨_, h1⟩
    · exact h1
    · exact absurd h1 hf
  · intro n e hn
    rw [hh.past n e, if_neg (Nat.ne_of_lt hn)]
  · intro e he
    rw [hh.past _ e, if_pos rfl]; exact he

/-- A shared action, other than the answer to a proxy, is the same action of the shared allocator. -/
theorem pstep_shared {ps ps' : PS} {a : Act} {t : Nat} {r : Option Resp} (hb : a.By t) (hn : ∀ ch p v s', a = .go t ch → ¬ ps.Answers t ch p v s')
    (hs : pstep ps (.shared a) = .ok (some (r, ps'))) : sstep ps.s a = .ok (some (r, ps'.s)) := by
  have other : (∀ u ch, a ≠ .go u ch) → sstep ps.s a = .ok (some (r, ps'.s)) := by
    intro hg
    have : pstep ps (.shared a) = (do
        match ← sstep ps.s a with
        | none => pure none
        | some (r, s') => pure (some (r, { ps with s := s' }))) := by
      cases a <;> first | rfl | exact absurd rfl (hg _ _)
    rw [this] at hs
    obtain ⟨o, h1, h2⟩ := ebind_inv hs
    match o, h1, h2 with
    | some (r1, s1), h1, h2 =>
      injection h2 with h2; injection h2 with h2; injection h2 with h2 h3
      subst h2 h3
      exact h1
  cases a with
  | go u ch =>
    cases (show u = t from hb)
    simp only [pstep] at hs
    obtain ⟨o, h1, h2⟩ := ebind_inv hs
    match o, h1, h2 with
    | none, h1, h2 => cases h2
    | some (none, s1), h1, h2 =>
      injection h2 with h2; injection h2 with h2; injection h2 with h2 h3
      subst h2 h3
      exact h1
    | some (some v, s1), h1, h2 =>
      dsimp only at h2
      split at h2
      · rename_i p hp
        by_cases hpc : p.pc = .idle
        · rw [if_pos hpc] at h2
          injection h2 with h2; injection h2 with h2; injection h2 with h2 h3
          subst h2 h3
          exact h1
        · exact absurd ⟨hp, hpc, h1⟩ (hn ch p v s1 rfl)
      · injection h2 with h2; injection h2 with h2; injection h2 with h2 h3
        subst h2 h3
        exact h1
  | _ => exact other (by intro u ch h; cases h)

/-- Who is inside, after a shared action. -/
theorem PAfter.inside {m : Nat → Byte} {K K' : PBook} {a : Act} {t : Nat} {r : Option Resp} (hb : a.By t) (ha : PAfter m K (.shared a) r K') (u : Nat)
    (hu : K.Inside u) : K'.Inside u ∨ u = t ∧ r ≠ none := by
  cases ha with
  | direct hsa _ =>
    rcases hu with hu | hu
    · have key : ∀ {v z}, v = t → (z ≠ none ∨ r ≠ none) → put K.direct.busy v z u ≠ none ∨ u = t ∧ r ≠ none := by
        rintro v z rfl hz
        by_cases huv : u = v
        · rcases hz with hz | hz
          · left; rw [huv, put_same]; exact hz
          · exact .inr ⟨huv, hz⟩
        · left; rw [put_ne _ _ huv]; exact hu
      refine Or.imp_left (fun h => .inl h) ?_
      cases hsa with
      | allocate => exact key hb (.inl (by simp))
      | resize => exact key hb (.inl (by simp))
      | deallocate => exact key hb (.inl (by simp))
      | ret => exact key hb (.inr (by simp))
      | _ => exact .inl hu
    · exact .inl (.inr hu)
  | @back v _ _ _ _ hpb =>
    have hvt : v = t := hb
    rcases hu with hu | hu
    · exact .inl (.inl hu)
    · by_cases huv : u = v
      · exact .inr ⟨huv.trans hvt, by simp⟩
      · left; right
        show put K.pbusy v none u ≠ none
        rw [put_ne _ _ huv]; exact hu

/-- Whoever accesses the root is inside a call. -/
theorem PInv.rootInside {p0 ps K KS cs pend} (hi : PInv p0 ps K KS cs pend) {t : Nat} {ch : Choice}
    (h : ReadsRoot ps.s (.go t ch) ∨ StoresRoot ps.s (.go t ch)) : K.Inside t := by
  obtain ⟨scs, B, sinv⟩ := hi.reach.inv
  have hb := sinv.rootBusy h
  by_cases hp : K.pbusy t = none
  · left; rw [hi.busyD hp]; exact hb
  · exact .inr hp

theorem PLegal.resetQuiet {p0 ps : PS} {K : PBook} {KS cs pend} (inv : PInv p0 ps K KS cs pend) {a : Act} (hr : a.isReset) (hl : PLegal K (.shared a)) (u : Nat) :
    ¬ K.Inside u := by
  have hq : (∀ i, K.live i = false) ∧ ∀ u, K.direct.busy u = none := by
    cases hl with
    | call _ _ => rcases hr with h | h | h <;> cases h
    | go => rcases hr with h | h | h <;> cases h
    | write _ => rcases hr with h | h | h <;> cases h
    | pwrite _ _ => rcases hr with h | h | h <;> cases h
    | sreset _ h hn =>
      refine ⟨hn, ?_⟩
      rcases hr with rfl | rfl | rfl <;> cases h <;> assumption
  have := inv.px u
  rw [hq.1 u] at this
  rintro (h1 | h1)
  · exact h1 (hq.2 u)
  · exact h1 this.dead.2.2.1

theorem pstep_spawn_s {ps ps' : PS} {i k : Nat} {r : Option Resp} (hs : pstep ps (.spawn i k) = .ok (some (r, ps'))) : ps'.s = ps.s := by
  simp only [pstep] at hs
  split at hs
  · cases hs
  · split at hs
    · injection hs with hs; injection hs with hs; injection hs with _ hs
      subst hs; rfl
    · cases hs

/-- All histories keep it. -/
theorem PHRun.rootInv {p0 : PS} (h0 : PStart p0) {t0 ps K h} (hr : PHRun p0 t0 ps K h) : h.RootInv ps.s K.Inside := by
  induction hr with
  | start => exact .start _ _ _
  | @shared ps K h t a r ps' K' h' hr hl hb hd hn hs ha hh ih =>
    obtain ⟨KS, cs, pend, inv, core, mem⟩ := hr.inv h0
    obtain ⟨scs, B, hi⟩ := inv.reach.inv
    have w := core.wf
    have hbz := fun u => ha.inside hb u
    have hs := pstep_shared hb hn hs
    have res : a.isReset → (h.view t h.epoch ∧ (∀ e, h.rets e → h.view t e) ∧ ∀ x e, h.mine x e → h.view t e) → a.resets = true →
        h'.RootInv ps'.s K'.Inside := fun hr hd hres =>
      HB.RootInv.reset hh hres (fun e he => ih.resetter w (hl.resetQuiet inv hr) hd he)
    cases a with
    | call u c =>
      have e1 : ps'.s.readers = ps.s.readers ∧ ps'.s.writer = ps.s.writer := by
        simp only [sstep] at hs
        split at hs
        · injection hs with hs; injection hs with hs; injection hs with _ hs
          rw [← hs]; exact ⟨rfl, rfl⟩
        · cases hs
      exact ih.step w hh (.of_same e1.1 e1.2 (by intro u ch h; cases h)) (.of_same e1.1 ReadsRoot.call StoresRoot.call) rfl hbz
        (fun h => absurd h (not_or.mpr ⟨ReadsRoot.call, StoresRoot.call⟩))
    | go u ch =>
      cases (show u = t from hb)
      exact ih.step w hh (hi.goLock hs) (hi.goRoot hs) rfl hbz (fun h => inv.rootInside h)
    | write y v =>
      have e1 : ps'.s.readers = ps.s.readers ∧ ps'.s.writer = ps.s.writer := by
        simp only [sstep] at hs
        injection hs with hs; injection hs with hs; injection hs with _ hs
        rw [← hs]; exact ⟨rfl, rfl⟩
      exact ih.step w hh (.of_same e1.1 e1.2 (by intro u ch h; cases h)) (.of_same e1.1 ReadsRoot.write StoresRoot.write) rfl hbz
        (fun h => absurd h (not_or.mpr ⟨ReadsRoot.write, StoresRoot.write⟩))
    | reset => exact res (.inl rfl) hd rfl
    | resetUnchecked => exact res (.inr (.inl rfl)) hd rfl
    | resetFinal => exact res (.inr (.inr rfl)) hd rfl
  | @back ps K h t ch p v s1 h1 r ps' K' h' hr hv hh1 hs ha hh ih =>
    obtain ⟨KS, cs, pend, hi⟩ := hr.inv h0
    obtain ⟨KS1, R, mid, _⟩ := hi.answer hv hh1
    obtain ⟨hp, hpc, ho⟩ := hv
    obtain ⟨hw, _, _⟩ := hi.inv.waiting hp hpc
    obtain ⟨scs, B, sinv⟩ := hi.inv.reach.inv
    have i1 : h1.RootInv s1 K.Inside := ih.step hi.core.wf hh1 (sinv.goLock ho) (sinv.goRoot ho) rfl (fun _ h => .inl h) (fun h => hi.inv.rootInside h)
    obtain ⟨f1, f2, _⟩ := (Frames.resume { ps with s := s1 } t p.a v p.pc).facts hs
    refine i1.own mid.core.wf hh ?_ f1 f2 (fun u hu => ha.inside (a := .go t ch) (by rfl) u hu)
    rintro ⟨u, hu⟩
    exact hu (PS.resume_reroot ..)
  | @own ps K h i a r ps' K' h' hr hl hp hd hs ha hh ih =>
    obtain ⟨KS, cs, pend, hi⟩ := hr.inv h0
    have book := OwnBook.of hl hp ha
    obtain ⟨f1, f2, _⟩ := (Frames.own ps hp).facts hs
    refine ih.own hi.core.wf hh ?_ f1 f2 ?_
    · rintro ⟨u, hu⟩
      exact hu (pstep_reroot ps hp u)
    · intro u hu
      left
      have hui : u ≠ i := by
        rintro rfl
        rcases hu with hu | hu
        · exact hu book.ready.2.2
        · exact hu book.ready.2.1
      unfold PBook.Inside at hu ⊢
      rw [book.direct, (book.others u hui).2.1]
      exact hu
  | spawn hr hl hd hs ha ih =>
    rw [pstep_spawn_s hs]
    cases ha
    exact ih
  | updateMax hr hl hs ha ih =>
    cases ha
    injection hs with hs; injection hs with hs; injection hs with _ hs
    rw [← hs]; exact ih
  | sync hr t u hs ha ih =>
    cases ha
    injection hs with hs; injection hs with hs; injection hs with _ hs
    rw [← hs]; exact ih.sync t u
  | tell _ t u ih => exact ih.sync t u
  | read hr _ _ _ ih =>
    obtain ⟨KS, cs, pend, hi⟩ := hr.inv h0
    exact ih.read hi.core.wf _ _

end Blink
