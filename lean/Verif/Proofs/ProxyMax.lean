import Verif.Spec.Proxy
import Verif.Proofs.Mem
/-
  The history of `max_local_alloc` and what each identity has seen of it.
-/
namespace Blink

theorem ebind_inv {α β : Type} {x : Except Fault α} {f : α → Except Fault β} {y : β} (h : x >>= f = .ok y) : ∃ a, x = .ok a ∧ f a = .ok y := by
  cases x with
  | error e => cases h
  | ok a => exact ⟨a, rfl, h⟩

/-- `max_local_alloc` is left alone. -/
structure Same (ps : PS) (x : PRes) : Prop where
  out : ∀ r ps', x = .ok (some (r, ps')) → ps'.hist = ps.hist ∧ ps'.view = ps.view

theorem Same.none {ps : PS} : Same ps (pure none) := ⟨by intro r ps' h; cases h⟩

theorem Same.answer (ps : PS) (i a w r) : Same ps (ps.answer i a w r) := by
  refine ⟨fun r' ps' h => ?_⟩
  injection h with h; injection h with h; injection h with _ h
  subst h
  exact ⟨rfl, rfl⟩

theorem Same.ask (ps : PS) (i a w c pc) : Same ps (ps.ask i a w c pc) := by
  refine ⟨fun r' ps' h => ?_⟩
  unfold PS.ask at h
  split at h
  · injection h with h; injection h with h; injection h with _ h
    subst h
    exact ⟨rfl, rfl⟩
  · cases h

theorem Same.bind {α} {ps : PS} {x : Except Fault α} {f : α → PRes} (h : ∀ a, Same ps (f a)) : Same ps (x >>= f) := by
  refine ⟨fun r ps' hx => ?_⟩
  obtain ⟨a, _, h2⟩ := ebind_inv hx
  exact (h a).out r ps' h2

theorem Same.freeNext (ps : PS) (i a c w) : Same ps (ps.freeNext i a c w) := by
  unfold PS.freeNext
  split
  · exact Same.answer ..
  · exact Same.bind fun _ => Same.bind fun _ => Same.bind fun _ => Same.ask ..

theorem Same.resume (ps : PS) (i a r pc) : Same ps (PS.resume ps i a r pc) := by
  cases pc with
  | idle => exact Same.none
  | alloc l =>
    cases r with
    | block b => exact Same.bind fun _ => Same.answer ..
    | unit => exact Same.answer ..
    | err => exact Same.answer ..
  | resize p old new =>
    cases r with
    | block b => exact Same.bind fun _ => Same.bind fun _ => Same.answer ..
    | unit => exact Same.answer ..
    | err => exact Same.answer ..
  | chain next => exact Same.freeNext ..

theorem Same.of {ps : PS} {s : SS} {x : PRes} (h : Same { ps with s := s } x) : Same ps x := ⟨h.out⟩

theorem Same.ok {ps ps' : PS} {r} (h1 : ps'.hist = ps.hist) (h2 : ps'.view = ps.view) : Same ps (pure (some (r, ps'))) := by
  refine ⟨fun r' q h => ?_⟩
  injection h with h; injection h with h; injection h with _ h
  subst h
  exact ⟨h1, h2⟩

/-- The largest value, and what everybody has seen, only grow. -/
structure Grows (ps ps' : PS) : Prop where
  head : ps.hist.headD 0 ≤ ps'.hist.headD 0
  view : ∀ t, ps.view t ≤ ps'.view t

/-- Every value was at most the current one, and nobody has seen a larger one. -/
structure HistOK (ps : PS) : Prop where
  sorted : ps.hist.Pairwise (· ≥ ·)
  seen : ∀ t, ps.view t ≤ ps.hist.headD 0

theorem HistOK.le {ps : PS} (h : HistOK ps) : ∀ v ∈ ps.hist, v ≤ ps.hist.headD 0 := by
  intro v hv
  have hs := h.sorted
  cases hh : ps.hist with
  | nil => rw [hh] at hv; cases hv
  | cons a t =>
    rw [hh] at hv hs
    rw [List.pairwise_cons] at hs
    rcases List.mem_cons.mp hv with rfl | hv
    · exact Nat.le_refl _
    · exact hs.1 v hv

theorem HistOK.fetchMax {ps : PS} (h : HistOK ps) (t v : Nat) :
    HistOK (ps.fetchMax t v) ∧ Grows ps (ps.fetchMax t v) ∧ v ≤ (ps.fetchMax t v).view t := by
  have e1 : (ps.fetchMax t v).hist = max (ps.hist.headD 0) v :: ps.hist := rfl
  have e2 : ∀ u, (ps.fetchMax t v).view u = if u = t then max (ps.hist.headD 0) v else ps.view u := fun _ => rfl
  have hd : (ps.fetchMax t v).hist.headD 0 = max (ps.hist.headD 0) v := rfl
  refine ⟨⟨?_, ?_⟩, ⟨?_, ?_⟩, ?_⟩
  · rw [e1, List.pairwise_cons]
    refine ⟨fun x hx => ?_, h.sorted⟩
    have := h.le x hx
    show x ≤ _
    omega
  · intro u
    rw [e2, hd]
    have := h.seen u
    split <;> omega
  · rw [hd]; omega
  · intro u
    rw [e2]
    split
    · rename_i hu; subst hu
      have := h.seen u
      omega
    · exact Nat.le_refl _
  · rw [e2, if_pos rfl]; omega

/-- What a step does to `max_local_alloc`. -/
inductive MaxRes (ps : PS) (a : PAct) (ps' : PS) : Prop
  | same (h : ps'.hist = ps.hist ∧ ps'.view = ps.view)
      (ha : ∀ i, a ≠ .reset i ∧ a ≠ .drop i ∧ (∀ k, a ≠ .spawn i k) ∧ ∀ t, a ≠ .sync t i)
  | load {i k : Nat} (ha : a = .spawn i k) (h1 : ps.view i ≤ ps.hist.getD k (ps.hist.headD 0))
      (h2 : ps' = (ps.setView i (ps.hist.getD k (ps.hist.headD 0))).setPx i
        (some ⟨BA.withChunkSize (ps.hist.getD k (ps.hist.headD 0)), .idle⟩))
  | max {t v : Nat} (h : ps'.hist = (ps.fetchMax t v).hist ∧ ps'.view = (ps.fetchMax t v).view)
      (ha : a = .updateMax t v ∨ (a = .reset t ∨ a = .drop t) ∧ v = ps.lastCap t)
  | sync {t u : Nat} (ha : a = .sync t u) (h : ps'.hist = ps.hist)
      (h' : ps'.view = fun x => if x = u then Nat.max (ps.view u) (ps.view t) else ps.view x)

theorem lastChunkSize_val {a : BA} {w : World} {c w'} (h : a.lastChunkSize w = .ok (c, w')) :
    c = if a.root = 0 then 0 else (decodeWord w.mem (a.root + 8)).getD 0 - (a.root + 32) := by
  unfold BA.lastChunkSize at h
  split at h
  · rename_i h0
    injection h with h; injection h with h _
    rw [if_pos h0, h]
  · rename_i h0
    rw [if_neg h0]
    unfold chunkCap at h
    obtain ⟨e, w1, h1, h5⟩ := mbind_inv h
    clear h
    have h2 : w1 = w ∧ decodeWord w.mem (a.root + 8) = some e := by
      unfold loadEnd loadWord at h1
      split at h1
      · cases hd : decodeWord w.mem (a.root + 8) with
        | none => rw [hd] at h1; cases h1
        | some v =>
          rw [hd] at h1
          injection h1 with h1; injection h1 with h1 h2
          exact ⟨h2.symm, by rw [h1]⟩
      · cases h1
    obtain ⟨rfl, h3⟩ := h2
    rw [h3]
    obtain ⟨b, w2, h4, h⟩ := mbind_inv h5
    unfold addU at h4
    split at h4
    · injection h4 with h4; injection h4 with h4 h5
      subst h4; subst h5
      unfold subU at h
      split at h
      · injection h with h; injection h with h _
        rw [← h]; rfl
      · cases h
    · cases h4

theorem pstep_max {ps : PS} {a r ps'} (h : pstep ps a = .ok (some (r, ps'))) : MaxRes ps a ps' := by
  have other : Same ps (pstep ps a) → (∀ i, a ≠ .reset i ∧ a ≠ .drop i ∧ (∀ k, a ≠ .spawn i k) ∧ ∀ t, a ≠ .sync t i) →
      MaxRes ps a ps' := fun hs ha => .same (hs.out r ps' h) ha
  cases a with
  | shared a =>
    refine other ?_ (by simp)
    cases a with
    | go t ch =>
      simp only [pstep]
      refine Same.bind fun x => ?_
      match x with
      | none => exact Same.none
      | some (none, s') => exact Same.ok rfl rfl
      | some (some r, s') =>
        simp only
        cases ps.px t with
        | none => exact Same.ok rfl rfl
        | some p =>
          simp only
          split
          · exact Same.ok rfl rfl
          · exact Same.of (Same.resume ..)
    | call => exact Same.bind fun x => by match x with | none => exact Same.none | some (r, s') => exact Same.ok rfl rfl
    | write => exact Same.bind fun x => by match x with | none => exact Same.none | some (r, s') => exact Same.ok rfl rfl
    | reset => exact Same.bind fun x => by match x with | none => exact Same.none | some (r, s') => exact Same.ok rfl rfl
    | resetUnchecked => exact Same.bind fun x => by match x with | none => exact Same.none | some (r, s') => exact Same.ok rfl rfl
    | resetFinal => exact Same.bind fun x => by match x with | none => exact Same.none | some (r, s') => exact Same.ok rfl rfl
  | spawn i k =>
    simp only [pstep] at h
    split at h
    · cases h
    · split at h
      · rename_i hv
        injection h with h; injection h with h; injection h with _ h
        exact .load rfl hv h.symm
      · cases h
  | allocate i l =>
    refine other ?_ (by simp)
    simp only [pstep]
    split
    · refine Same.bind fun x => ?_
      obtain ⟨o, w⟩ := x
      cases o with
      | some b => exact Same.answer ..
      | none =>
        refine Same.bind fun y => ?_
        obtain ⟨q, w⟩ := y
        cases q with
        | none => exact Same.answer ..
        | some n => exact Same.ask ..
    · exact Same.none
  | resize i p old new =>
    refine other ?_ (by simp)
    simp only [pstep]
    split
    · refine Same.bind fun x => ?_
      obtain ⟨o, w⟩ := x
      cases o with
      | some b => exact Same.answer ..
      | none =>
        refine Same.bind fun y => ?_
        obtain ⟨q, w⟩ := y
        cases q with
        | none => exact Same.answer ..
        | some n => exact Same.ask ..
    · exact Same.none
  | deallocate i p n =>
    refine other ?_ (by simp)
    simp only [pstep]
    split
    · exact Same.bind fun x => Same.answer ..
    · exact Same.none
  | reset i =>
    simp only [pstep] at h
    split at h
    · rename_i a hp
      obtain ⟨⟨c, w⟩, h1, h⟩ := ebind_inv h
      obtain ⟨⟨rt, w2⟩, h2, h⟩ := ebind_inv h
      injection h with h; injection h with h; injection h with _ h
      subst h
      refine .max (t := i) (v := c) ⟨rfl, rfl⟩ (.inr ⟨.inl rfl, ?_⟩)
      rw [lastChunkSize_val h1]
      simp only [PS.lastCap, hp]
    · cases h
  | resetUnchecked i =>
    refine other ?_ (by simp)
    simp only [pstep]
    split
    · split
      · exact Same.answer ..
      · exact Same.bind fun x => Same.freeNext ..
    · exact Same.none
  | drop i =>
    simp only [pstep] at h
    split at h
    · rename_i a hp
      obtain ⟨⟨c, w⟩, h1, h⟩ := ebind_inv h
      obtain ⟨⟨rt, w2⟩, h2, h⟩ := ebind_inv h
      obtain ⟨⟨⟨⟩, w3⟩, h3, h⟩ := ebind_inv h
      injection h with h; injection h with h; injection h with _ h
      subst h
      refine .max (t := i) (v := c) ⟨rfl, rfl⟩ (.inr ⟨.inr rfl, ?_⟩)
      rw [lastChunkSize_val h1]
      simp only [PS.lastCap, hp]
    · cases h
  | updateMax t v =>
    injection h with h; injection h with h; injection h with _ h
    subst h
    exact .max ⟨rfl, rfl⟩ (.inl rfl)
  | sync t u =>
    injection h with h; injection h with h; injection h with _ h
    subst h
    exact .sync rfl rfl rfl

theorem MaxRes.hist {ps a ps'} (hr : MaxRes ps a ps') (h : HistOK ps) : HistOK ps' ∧ Grows ps ps' := by
  have cong : ∀ {q : PS}, ps'.hist = q.hist ∧ ps'.view = q.view → HistOK q ∧ Grows ps q → HistOK ps' ∧ Grows ps ps' := by
    intro q e hq
    obtain ⟨⟨a1, a2⟩, ⟨a3, a4⟩⟩ := hq
    rw [← e.1] at a1 a2 a3
    rw [← e.2] at a2 a4
    exact ⟨⟨a1, a2⟩, ⟨a3, a4⟩⟩
  cases hr with
  | same e => exact cong (q := ps) e ⟨h, ⟨Nat.le_refl _, fun _ => Nat.le_refl _⟩⟩
  | @load i k ha h1 h2 =>
    subst h2
    have hv : ps.hist.getD k (ps.hist.headD 0) ≤ ps.hist.headD 0 := by
      rw [List.getD_eq_getElem?_getD]
      cases hg : ps.hist[k]? with
      | none => exact Nat.le_refl _
      | some v => exact h.le v (List.mem_of_getElem? hg)
    refine ⟨⟨h.sorted, fun t => ?_⟩, ⟨Nat.le_refl _, fun t => ?_⟩⟩
    · show (if t = i then _ else ps.view t) ≤ ps.hist.headD 0
      split
      · exact hv
      · exact h.seen t
    · show ps.view t ≤ (if t = i then _ else ps.view t)
      split
      · rename_i he; subst he; exact h1
      · exact Nat.le_refl _
  | max e =>
    obtain ⟨a1, a2, _⟩ := h.fetchMax _ _
    exact cong e ⟨a1, a2⟩
  | @sync t u ha e1 e2 =>
    refine ⟨⟨by rw [e1]; exact h.sorted, fun x => ?_⟩, ⟨by rw [e1]; exact Nat.le_refl _, fun x => ?_⟩⟩
    · rw [e1, e2]
      simp only
      split
      · exact Nat.max_le.mpr ⟨h.seen u, h.seen t⟩
      · exact h.seen x
    · rw [e2]
      simp only
      split
      · rename_i he; subst he; exact Nat.le_max_left ..
      · exact Nat.le_refl _

theorem PRun.hist {s0 K0 tr s K} (h : PRun s0 K0 tr s K) (h0 : HistOK s0) : HistOK s ∧ Grows s0 s := by
  induction h with
  | nil => exact ⟨h0, ⟨Nat.le_refl _, fun _ => Nat.le_refl _⟩⟩
  | snoc _ _ hs _ ih =>
    obtain ⟨a1, a2⟩ := ih
    obtain ⟨b1, b2⟩ := (pstep_max hs).hist a1
    exact ⟨b1, ⟨Nat.le_trans a2.head b2.head, fun t => Nat.le_trans (a2.view t) (b2.view t)⟩⟩

theorem PStart.histOK {ps} (h : PStart ps) : HistOK ps := by
  refine ⟨by rw [h.hist]; simp, fun t => by rw [h.view t]; exact Nat.zero_le _⟩

theorem PReach.histOK {p0 ps K} (h : PReach p0 ps K) : HistOK ps := by
  obtain ⟨h0, tr, hr⟩ := h
  exact (hr.hist h0.histOK).1

/-- What `i` had seen before the history, `j` has seen after it. -/
theorem PRun.knows {s0 K0 tr s K} (h : PRun s0 K0 tr s K) (h0 : HistOK s0) {i j} (hk : Knows tr i j) : s0.view i ≤ s.view j := by
  induction h generalizing j with
  | nil =>
    generalize he : ([] : List (PAct × Option Resp)) = tr at hk
    cases hk with
    | self => exact Nat.le_refl _
    | keep => simp at he
    | sync => simp at he
  | @snoc tr s K a r s' K' hr _ hs _ ih =>
    have hm := pstep_max hs
    have hg := (hm.hist (hr.hist h0).1).2
    generalize he : tr ++ [(a, r)] = tr' at hk
    cases hk with
    | self => simp at he
    | keep hk =>
      have := List.append_inj_left' he rfl
      subst this
      exact Nat.le_trans (ih hk) (hg.view j)
    | @sync tr1 _ t _ r1 hk =>
      have h1 := List.append_inj_left' he rfl
      have h2 := List.append_inj_right' he rfl
      subst h1
      injection h2 with h2; injection h2 with h2 _
      subst h2
      refine Nat.le_trans (ih hk) ?_
      injection hs with hs; injection hs with hs; injection hs with _ hs
      subst hs
      show s.view t ≤ if j = j then max (s.view j) (s.view t) else s.view j
      rw [if_pos rfl]
      omega

end Blink
