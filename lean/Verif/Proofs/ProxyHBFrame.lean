import Verif.Proofs.ProxyHB
/-
  What code of proxies leaves alone of the shared allocator, and which bytes it touches.
-/
namespace Blink

/-! ### Only memory changes -/

/-- Nothing but memory changes. -/
def OnlyMem {α} (f : M α) : Prop := ∀ w a w', f w = .ok (a, w') → w' = { w with mem := w'.mem }

namespace OnlyMem

theorem pure {α} (a : α) : OnlyMem (Pure.pure a : M α) := by
  intro w b w' h; cases h; rfl

theorem ub {α} (s : String) : OnlyMem (Blink.ub s : M α) := by
  intro w b w' h; cases h

theorem bind {α β} {f : M α} {g : α → M β} (hf : OnlyMem f) (hg : ∀ a, OnlyMem (g a)) : OnlyMem (f >>= g) := by
  intro w b w' h
  obtain ⟨a, w1, h1, h2⟩ := mbind_inv h
  rw [hg a _ _ _ h2, hf _ _ _ h1]

theorem of_eq {α} {f : M α} (h : ∀ w a w', f w = .ok (a, w') → w' = w) : OnlyMem f := by
  intro w a w' h1; rw [h w a w' h1]

theorem require (p : Prop) [Decidable p] (s : String) : OnlyMem (Blink.require p s) :=
  of_eq fun w a w' h => by unfold Blink.require at h; split at h <;> cases h; rfl

theorem dassert (p : Prop) [Decidable p] (s : String) : OnlyMem (Blink.dassert p s) := of_eq fun _ _ _ h => dassert_world h

theorem addU (a b : Nat) : OnlyMem (Blink.addU a b) := of_eq fun w a w' h => by unfold Blink.addU at h; split at h <;> cases h; rfl

theorem subU (a b : Nat) : OnlyMem (Blink.subU a b) := of_eq fun w a w' h => by unfold Blink.subU at h; split at h <;> cases h; rfl

theorem loadWord (a : Nat) : OnlyMem (Blink.loadWord a) := of_eq fun _ _ _ h => loadWord_world h

theorem storeWord (a v : Nat) : OnlyMem (Blink.storeWord a v) := by
  intro w b w' h; unfold Blink.storeWord at h; split at h <;> cases h; rfl

theorem copyNonoverlapping (a b n : Nat) : OnlyMem (Blink.copyNonoverlapping a b n) := by
  intro w b w' h; unfold Blink.copyNonoverlapping at h; split at h <;> cases h; rfl

theorem markUninit (s : Slice) : OnlyMem (Blink.markUninit s) := by
  intro w b w' h; cases h; rfl

theorem chunkCap (c : Nat) : OnlyMem (Blink.chunkCap c) := by
  unfold Blink.chunkCap loadEnd
  exact bind (loadWord _) fun _ => bind (addU _ _) fun _ => subU _ _

theorem initChunk (s : Slice) (p : Nat) : OnlyMem (Blink.initChunk s p) := by
  unfold Blink.initChunk loadCum
  refine bind (dassert _ _) fun _ => bind (dassert _ _) fun _ => bind (addU _ _) fun _ => bind (addU _ _) fun _ => bind ?_ fun _ =>
    bind (storeWord _ _) fun _ => bind (storeWord _ _) fun _ => bind (storeWord _ _) fun _ => bind (storeWord _ _) fun _ => pure _
  split
  · exact pure _
  · exact bind (chunkCap _) fun _ => bind (loadWord _) fun _ => addU _ _

theorem tryBump (c e : Nat) (l : Layout) : OnlyMem (Blink.tryBump c e l) := by
  unfold Blink.tryBump layoutSum
  refine bind (bind (subU _ _) fun _ => addU _ _) fun _ => ?_
  split
  · exact pure _
  · refine bind (subU _ _) fun _ => bind (dassert _ _) fun _ => bind (dassert _ _) fun _ => bind (addU _ _) fun _ => ?_
    split
    · exact pure _
    · exact bind (require _ _) fun _ => pure _

theorem chunkAlloc (c : Nat) (l : Layout) : OnlyMem (Blink.chunkAlloc c l) := by
  unfold Blink.chunkAlloc loadCursor loadEnd cellCasWeak
  refine bind (loadWord _) fun _ => bind (loadWord _) fun _ => bind (tryBump _ _ _) fun o => ?_
  cases o with
  | none => exact pure _
  | some q =>
    exact bind (bind (loadWord _) fun _ => bind (dassert _ _) fun _ => storeWord _ _) fun _ => bind (subU _ _) fun _ =>
      bind (dassert _ _) fun _ => bind (dassert _ _) fun _ => pure _

theorem newChunkAlloc (root : Nat) (s : Slice) (l : Layout) : OnlyMem (Blink.newChunkAlloc root s l) := by
  unfold Blink.newChunkAlloc
  refine bind (markUninit _) fun _ => bind (initChunk _ _) fun _ => bind (chunkAlloc _ _) fun o => ?_
  cases o with
  | none => exact ub _
  | some s => exact pure _

end OnlyMem

/-! ### The rest of the shared allocator -/

/-- Of the shared allocator only the world changes, and `i` may have begun a call. -/
structure Frames (i : Nat) (s : SS) (x : PRes) : Prop where
  out : ∀ r ps', x = .ok (some (r, ps')) → ∃ w, ps'.s = { s with w := w } ∨ ∃ c, ps'.s = { s with w := w }.setPc i (.rd c)

namespace Frames

theorem none {i s} : Frames i s (pure none) := ⟨by intro r ps' h; cases h⟩

theorem ok {i s r} {ps' : PS} {w : World} (h : ps'.s = { s with w := w }) : Frames i s (pure (some (r, ps'))) := by
  refine ⟨fun r' q h1 => ?_⟩
  injection h1 with h1; injection h1 with h1; injection h1 with _ h1
  subst h1
  exact ⟨w, .inl h⟩

theorem answer {j : Nat} {s : SS} {ps : PS} (hs : ps.s = s) (i a w r) : Frames j s (ps.answer i a w r) := by
  subst hs
  exact ok (w := w) rfl

theorem ask (ps : PS) (i a w c pc) : Frames i ps.s (ps.ask i a w c pc) := by
  unfold PS.ask
  split
  · refine ⟨fun r' q h1 => ?_⟩
    injection h1 with h1; injection h1 with h1; injection h1 with _ h1
    subst h1
    exact ⟨w, .inr ⟨c, rfl⟩⟩
  · exact none

theorem bind {α} {i s} {x : Except Fault α} {f : α → PRes} (h : ∀ a, Frames i s (f a)) : Frames i s (x >>= f) := by
  refine ⟨fun r ps' hx => ?_⟩
  obtain ⟨a, _, h2⟩ := ebind_inv hx
  exact (h a).out r ps' h2

theorem freeNext (ps : PS) (i a c w) : Frames i ps.s (ps.freeNext i a c w) := by
  unfold PS.freeNext
  split
  · exact answer rfl ..
  · exact bind fun _ => bind fun _ => bind fun _ => ask ..

theorem resume (ps : PS) (i a r pc) : Frames i ps.s (PS.resume ps i a r pc) := by
  cases pc with
  | idle => exact none
  | alloc l =>
    cases r with
    | block b => exact bind fun _ => answer rfl ..
    | unit => exact answer rfl ..
    | err => exact answer rfl ..
  | resize p old new =>
    cases r with
    | block b => exact bind fun _ => bind fun _ => answer rfl ..
    | unit => exact answer rfl ..
    | err => exact answer rfl ..
  | chain next => exact freeNext ..

theorem own (ps : PS) {a : PAct} {i : Nat} (hi : a.proxy = some i) : Frames i ps.s (pstep ps a) := by
  cases a with
  | shared a => cases hi
  | spawn j k => cases hi
  | updateMax t v => cases hi
  | sync t u => cases hi
  | allocate j l =>
    injection hi with hi; subst hi
    simp only [pstep]
    split
    · refine bind fun q => ?_
      obtain ⟨o, w⟩ := q
      cases o with
      | some b => exact answer rfl ..
      | none =>
        refine bind fun q => ?_
        obtain ⟨o, w⟩ := q
        cases o with
        | none => exact answer rfl ..
        | some n => exact ask ..
    · exact none
  | resize j p old new =>
    injection hi with hi; subst hi
    simp only [pstep]
    split
    · refine bind fun q => ?_
      obtain ⟨o, w⟩ := q
      cases o with
      | some b => exact answer rfl ..
      | none =>
        refine bind fun q => ?_
        obtain ⟨o, w⟩ := q
        cases o with
        | none => exact answer rfl ..
        | some n => exact ask ..
    · exact none
  | deallocate j p n =>
    injection hi with hi; subst hi
    simp only [pstep]
    split
    · exact bind fun _ => answer rfl ..
    · exact none
  | reset j =>
    injection hi with hi; subst hi
    simp only [pstep]
    split
    · exact bind fun q => bind fun _ => answer (ps := ps.fetchMax j q.1) rfl ..
    · exact none
  | resetUnchecked j =>
    injection hi with hi; subst hi
    simp only [pstep]
    split
    · split
      · exact answer rfl ..
      · exact bind fun _ => freeNext ..
    · exact none
  | drop j =>
    injection hi with hi; subst hi
    simp only [pstep]
    split
    · exact bind fun _ => bind fun q => bind fun q => ok (w := q.2) rfl
    · exact none

variable {i : Nat} {s : SS} {x : PRes} {r : Option Resp} {ps' : PS}

theorem facts (h : Frames i s x) (hx : x = .ok (some (r, ps'))) :
    ps'.s.readers = s.readers ∧ ps'.s.writer = s.writer ∧ ps'.s.root = s.root ∧ (∀ u, u ≠ i → ps'.s.pcs u = s.pcs u) ∧
    (ps'.s.pcs i = s.pcs i ∨ ∃ c, ps'.s.pcs i = .rd c) := by
  obtain ⟨w, h1 | ⟨c, h1⟩⟩ := h.out r ps' hx
  · rw [h1]; exact ⟨rfl, rfl, rfl, fun _ _ => rfl, .inl rfl⟩
  · rw [h1]; exact ⟨rfl, rfl, rfl, fun _ hu => SS.setPc_ne _ _ hu, .inr ⟨c, SS.setPc_same _ _ _⟩⟩

end Frames

theorem PS.ask_mem {ps ps' : PS} {i a w c pc r} (h : ps.ask i a w c pc = .ok (some (r, ps'))) : ps'.s.w = w := by
  unfold PS.ask at h
  split at h
  · injection h with h; injection h with h; injection h with _ h
    subst h; rfl
  · cases h

theorem PS.answer_mem {ps ps' : PS} {i a w v r} (h : ps.answer i a w v = .ok (some (r, ps'))) : ps'.s.w = w := by
  injection h with h; injection h with h; injection h with _ h
  subst h; rfl

theorem PS.resume_mem {ps ps' : PS} {i a v pc r} (h : PS.resume ps i a v pc = .ok (some (r, ps'))) :
    ps'.s.w = { ps.s.w with mem := ps'.s.w.mem } := by
  cases pc with
  | idle => cases h
  | alloc l =>
    cases v with
    | block b =>
      obtain ⟨⟨s, w⟩, h1, h2⟩ := ebind_inv h
      rw [PS.answer_mem h2]
      exact OnlyMem.newChunkAlloc _ _ _ _ _ _ h1
    | unit => rw [PS.answer_mem h]
    | err => rw [PS.answer_mem h]
  | resize p old new =>
    cases v with
    | block b =>
      obtain ⟨⟨s, w⟩, h1, h2⟩ := ebind_inv h
      obtain ⟨⟨u, w2⟩, h3, h4⟩ := ebind_inv h2
      rw [PS.answer_mem h4, OnlyMem.copyNonoverlapping _ _ _ _ _ _ h3]
      have := OnlyMem.newChunkAlloc _ _ _ _ _ _ h1
      rw [this]
    | unit => rw [PS.answer_mem h]
    | err => rw [PS.answer_mem h]
  | chain n =>
    simp only [PS.resume, PS.freeNext] at h
    split at h
    · rw [PS.answer_mem h]
    · obtain ⟨⟨q, w⟩, h1, h2⟩ := ebind_inv h
      obtain ⟨⟨e, w1⟩, h3, h4⟩ := ebind_inv h2
      obtain ⟨⟨z, w2⟩, h5, h6⟩ := ebind_inv h4
      rw [PS.ask_mem h6]
      have e1 := OnlyMem.loadWord _ _ _ _ h1
      have e2 := OnlyMem.loadWord _ _ _ _ h3
      have e3 := OnlyMem.subU _ _ _ _ _ h5
      rw [e3, e2, e1]

/-! ### Touched bytes -/

/-- What a call of a proxy touches. -/
theorem PInv.own_touch {p0 ps K KS cs pend} (h : PInv p0 ps K KS cs pend) {a : PAct} (hl : PLegal K a) {i : Nat} (hi : a.proxy = some i)
    {x : Nat} (hx : TouchesBy (fun q => pstep q a) ps x) :
    InHdr (cs i) x ∨ ∃ p old new, a = .resize i p old new ∧ (p ≤ x ∧ x < p + old.size ∨ InRoom (cs i) x) := by
  apply Classical.byContradiction
  intro hn
  obtain ⟨v, hv⟩ := hx
  refine hv (h.own_blind hl hi (fun hh => hn (.inl hh)) ?_ v)
  intro p old new he
  exact ⟨Decidable.byContradiction fun hc => hn (.inr ⟨p, old, new, he, .inl (by omega)⟩), fun hr => hn (.inr ⟨p, old, new, he, .inr hr⟩)⟩

/-- What a proxy touches when the shared allocator has answered. -/
theorem PInv.back_touch {p0 ps K KS cs pend} (h : PInv p0 ps K KS cs pend) {t : Nat} {ch : Choice} {p : Proxy} {v : Resp} {s1 : SS}
    (ha : ps.Answers t ch p v s1) {x : Nat} (hx : TouchesBy (fun q => q.resume t p.a v p.pc) { ps with s := s1 } x) :
    InHdr (cs t ++ pend t) x ∨ (∃ sl, v = .block sl ∧ sl.addr ≤ x ∧ x < sl.addr + sl.len) ∨ ∃ c b, K.pbusy t = some (c, some b) ∧ b.Has x := by
  obtain ⟨hp, hpc, ho⟩ := ha
  apply Classical.byContradiction
  intro hn
  obtain ⟨u, hv⟩ := hx
  apply hv
  obtain ⟨e1, _⟩ := h.reach.ret_w ho
  have hroot : p.a.root ≠ 0 → x < p.a.root ∨ p.a.root + 32 ≤ x := by
    intro h0
    apply Decidable.byContradiction
    intro hc
    obtain ⟨_, e, _⟩ := h.exists_ hp
    rw [e] at h0 hc
    cases hcs : cs t with
    | nil => rw [hcs] at h0; exact h0 rfl
    | cons c tl =>
      rw [hcs] at hc
      simp only [rootOf] at hc
      exact hn (.inl ⟨c, by rw [hcs]; exact List.mem_cons_self, by omega, by omega⟩)
  have hsl : ∀ sl, v = .block sl → x < sl.addr ∨ sl.addr + sl.len ≤ x := fun sl he => Decidable.byContradiction fun hc =>
    hn (.inr (.inl ⟨sl, he, by omega, by omega⟩))
  show PS.resume (PS.poke { ps with s := s1 } x u) t p.a v p.pc = ppokeRes x u (PS.resume { ps with s := s1 } t p.a v p.pc)
  cases hq : p.pc with
  | idle => exact absurd hq hpc
  | chain n =>
    refine PS.freeNext_poke _ _ _ _ _ _ fun h0 => ?_
    have hx := h.px t
    rw [hp] at hx
    generalize K.live t = z1 at hx
    generalize K.led t = z2 at hx
    generalize K.pbusy t = z3 at hx
    generalize K.direct.busy t = z4 at hx
    generalize KS.busy t = z5 at hx
    generalize hz6 : pend t = z6 at hx
    generalize hz7 : cs t = z7 at hx
    cases hx with
    | idle => cases hq
    | alloc => cases hq
    | resize => cases hq
    | chain hv hp' hm hc =>
      injection hq with hq
      subst hq
      exact notHdr_root (fun ⟨d, hd, hx⟩ => hn (.inl ⟨d, by rw [hz6]; exact List.mem_append_right _ hd, hx⟩)) h0
  | alloc l =>
    cases v with
    | unit => rfl
    | err => rfl
    | block sl =>
      have hsl := hsl sl rfl
      obtain ⟨w2, _⟩ := h.block_within ho hp hpc
      have := w2 (.inl ⟨l, hq⟩)
      exact ppk_bind (Blind.newChunkAlloc _ _ _ hroot hsl (by omega)) fun _ _ _ => rfl
  | resize q old new =>
    cases v with
    | unit => rfl
    | err => rfl
    | block sl =>
      have hsl := hsl sl rfl
      have hold : x < q ∨ q + old.size ≤ x := by
        apply Decidable.byContradiction
        intro hc
        obtain ⟨R, b, hb, _, _, hf, _⟩ := h.at_resize hp hq
        obtain ⟨f1, _, f3, f4⟩ := hf
        exact hn (.inr (.inr ⟨_, b, hb, by omega, by omega⟩))
      obtain ⟨w2, w3⟩ := h.block_within ho hp hpc
      have := w2 (.inr ⟨q, old, new, hq⟩)
      refine ppk_bind (Blind.newChunkAlloc _ _ _ hroot hsl (by omega)) fun b w1 hb1 => ?_
      have hb2 := w3 q old new hq b w1 (by rw [← e1]; exact hb1)
      exact ppk_bind (Blind.copyNonoverlapping _ _ _ (by omega) (by omega)) fun _ _ _ => rfl

end Blink
