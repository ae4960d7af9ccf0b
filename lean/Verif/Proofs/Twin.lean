import Verif.Proofs.Step
import Verif.Proofs.ProxyArena
/-
  Two worlds in which an arena has the same chunks: the same calls have the same effects.
-/
namespace Blink

/-- Byte `x` is in the part of a chunk behind the header. -/
def InBody (cs : List Chunk) (x : Nat) : Prop := ∃ c ∈ cs, c.start + 32 ≤ x ∧ x < c.end_

/-- The two memories agree on everything in the chunks but the headers. -/
def SameBody (cs : List Chunk) (m1 m2 : Nat → Byte) : Prop := ∀ x, InBody cs x → m1 x = m2 x

theorem InBody.cons {c cs x} (h : InBody cs x) : InBody (c :: cs) x := by
  obtain ⟨d, hd, h1⟩ := h
  exact ⟨d, List.mem_cons_of_mem _ hd, h1⟩

theorem InUsed.body {cs : List Chunk} (hok : ∀ c ∈ cs, ChunkOK c) {p n k : Nat} (h : InUsed cs p n) (hk : k < n) : InBody cs (p + k) := by
  obtain ⟨d, hd, h1, h2⟩ := h
  have := (hok d hd).hi
  exact ⟨d, hd, by omega, by omega⟩

theorem InBody.cursor {c : Chunk} {t : List Chunk} {v x : Nat} : InBody ({ c with cursor := v } :: t) x ↔ InBody (c :: t) x := by
  constructor
  · rintro ⟨d, hd, h1⟩
    rcases List.mem_cons.mp hd with rfl | hd
    · exact ⟨c, List.mem_cons_self, h1⟩
    · exact ⟨d, List.mem_cons_of_mem _ hd, h1⟩
  · rintro ⟨d, hd, h1⟩
    rcases List.mem_cons.mp hd with rfl | hd
    · exact ⟨_, List.mem_cons_self, h1⟩
    · exact ⟨d, List.mem_cons_of_mem _ hd, h1⟩

/-- The set of acceptable blocks depends only on the blocks held and the size of the address space. -/
theorem freshOk_congr {w1 w2 : World} (hh : w1.held.Perm w2.held) (ht : w1.top = w2.top) {l : Layout} {sl : Slice}
    (h : freshOk w1 l sl = true) : freshOk w2 l sl = true := by
  simp only [freshOk, Bool.and_eq_true, decide_eq_true_eq, List.all_eq_true] at *
  rw [← ht]
  exact ⟨h.1, fun b hb => h.2 b (hh.mem_iff.mpr hb)⟩

/-- A new block lies apart from the chunks. -/
theorem fresh_body {w : World} {cs F l sl} (h : AInv w cs F) (hf : freshOk w l sl = true) {x : Nat} (hx : InBody cs x) (h1 : sl.addr ≤ x)
    (h2 : x < sl.addr + sl.len) : False := by
  obtain ⟨c, hc, h3, h4⟩ := hx
  simp only [freshOk, Bool.and_eq_true, decide_eq_true_eq, List.all_eq_true] at hf
  have := hf.2 c.blk (h.perm.mem_iff.mpr (List.mem_append_left _ (List.mem_map_of_mem hc)))
  simp only [Chunk.blk] at this
  omega

theorem bump_noFit {cs : List Chunk} {l : Layout} {c t a} (hn : NoFit cs l) (hcs : cs = c :: t) (hb : bump c.cursor c.end_ l = some a) : False := by
  have := hn c t hcs
  rw [hb] at this
  cases this

/-- The same request in two worlds with the same chunks. -/
theorem AllocRes.twin {w1 w2 : World} {cs F1 m l o1 o2 w1' w2' cs1 cs2} (i1 : AInv w1 cs F1)
    (h1 : AllocRes w1 cs m l o1 w1' cs1) (h2 : AllocRes w2 cs m l o2 w2' cs2)
    (ho : NoFit cs l → w1.oracle w1.calls = w2.oracle w2.calls) (hm : SameBody cs w1.mem w2.mem) :
    o1 = o2 ∧ cs1 = cs2 ∧ SameBody cs1 w1'.mem w2'.mem := by
  cases h1 with
  | fast c t a hcs hb =>
    cases h2 with
    | fast c' t' a' hcs' hb' =>
      rw [hcs] at hcs'
      injection hcs' with e1 e2
      subst e1; subst e2
      rw [hb] at hb'
      injection hb' with e3
      subst e3
      refine ⟨rfl, rfl, ?_⟩
      intro x hx
      rw [InBody.cursor, ← hcs] at hx
      have := hm x hx
      simp only [setCursor, setBytes]
      split
      · rfl
      · exact this
    | slow hn => exact (bump_noFit hn hcs hb).elim
  | slow hn h1 =>
    have ho := ho hn
    cases h2 with
    | fast c t a hcs hb => exact (bump_noFit hn hcs hb).elim
    | slow _ h2 =>
      cases h1 with
      | tooBig h =>
        cases h2 with
        | tooBig => exact ⟨rfl, rfl, hm⟩
        | refused R h' => rw [h] at h'; cases h'
        | ok R sl m' h' => rw [h] at h'; cases h'
      | refused R h ho1 =>
        cases h2 with
        | tooBig h' => rw [h] at h'; cases h'
        | refused R h' => exact ⟨rfl, rfl, hm⟩
        | ok R sl m' h' ho2 => rw [ho1, ho2] at ho; cases ho
      | ok R sl m' h ho1 hf hb hm1 hu1 =>
        cases h2 with
        | tooBig h' => rw [h] at h'; cases h'
        | refused R h' ho2 => rw [ho1, ho2] at ho; cases ho
        | ok R' sl' m2' h' ho2 hf' hb' hm2 hu2 =>
          rw [h] at h'; injection h' with h'; subst h'
          rw [ho1, ho2] at ho; injection ho with ho; subst ho
          refine ⟨rfl, rfl, ?_⟩
          rintro x ⟨c, hc, h3, h4⟩
          rcases List.mem_cons.mp hc with rfl | hc
          · simp only [newChunk] at h3 h4
            exact (hu1 x h3 h4).trans (hu2 x h3 h4).symm
          · have hx : InBody cs x := ⟨c, hc, h3, h4⟩
            have hout : x < sl.addr ∨ sl.addr + sl.len ≤ x := by
              apply Decidable.byContradiction
              intro hn
              exact fresh_body i1 hf hx (by omega) (by omega)
            exact (hm1 x hout).trans ((hm x hx).trans (hm2 x hout).symm)

theorem AllocRes.body {w : World} {cs m l o w' cs'} (h : AllocRes w cs m l o w' cs') {x} (hx : InBody cs x) : InBody cs' x := by
  cases h with
  | fast c t a hcs => rw [InBody.cursor, ← hcs]; exact hx
  | slow hn h =>
    cases h with
    | tooBig => exact hx
    | refused => exact hx
    | ok => exact hx.cons

theorem ResizeRes.twin {w1 w2 : World} {cs F1 m p old new o1 o2 w1' w2' cs1 cs2} (i1 : AInv w1 cs F1)
    (hp : InUsed cs p old.size) (h1 : ResizeRes w1 cs m p old new o1 w1' cs1) (h2 : ResizeRes w2 cs m p old new o2 w2' cs2)
    (ho : NoFitResize cs p old new → w1.oracle w1.calls = w2.oracle w2.calls) (hm : SameBody cs w1.mem w2.mem) :
    o1 = o2 ∧ cs1 = cs2 ∧ SameBody cs1 w1'.mem w2'.mem := by
  have al : ∀ {o1 o2 w1' w2' cs1 cs2}, ¬ (new.align ≤ old.align ∧ new.size ≤ old.size) →
      (∀ c t, cs = c :: t → ¬ (new.align ≤ old.align ∧ c.cursor = p + old.size ∧ p + new.size ≤ c.end_)) →
      AllocRes w1 cs m new o1 w1' cs1 → AllocRes w2 cs m new o2 w2' cs2 → o1 = o2 ∧ cs1 = cs2 ∧ SameBody cs1 w1'.mem w2'.mem :=
    fun hn hg a1 a2 => AllocRes.twin i1 a1 a2 (fun hf => ho ⟨hn, hg, hf⟩) hm
  cases h1 with
  | same ha hs =>
    cases h2 with
    | same => exact ⟨rfl, rfl, hm⟩
    | grow c t hcs ha' hs' => omega
    | move s w cs' hn => exact absurd ⟨ha, hs⟩ hn
    | fail w cs' hn => exact absurd ⟨ha, hs⟩ hn
  | grow c t hcs ha hs htip hfit =>
    cases h2 with
    | same ha' hs' => omega
    | grow c' t' hcs' =>
      rw [hcs] at hcs'
      injection hcs' with e1 e2
      subst e1; subst e2
      refine ⟨rfl, rfl, ?_⟩
      intro x hx
      rw [InBody.cursor, ← hcs] at hx
      have := hm x hx
      simp only [setCursor, setBytes]
      split
      · rfl
      · exact this
    | move s w cs' hn hg => exact absurd ⟨ha, htip, hfit⟩ (hg c t hcs)
    | fail w cs' hn hg => exact absurd ⟨ha, htip, hfit⟩ (hg c t hcs)
  | move s w cs' hn hg hr =>
    cases h2 with
    | same ha hs => exact absurd ⟨ha, hs⟩ hn
    | grow c t hcs ha hs htip hfit => exact absurd ⟨ha, htip, hfit⟩ (hg c t hcs)
    | move s2 w2 cs2 _ _ hr2 =>
      obtain ⟨e1, e2, e3⟩ := al hn hg hr hr2
      injection e1 with e1; subst e1; subst e2
      refine ⟨rfl, rfl, ?_⟩
      intro x hx
      simp only [setBytes]
      split
      · rename_i hx2
        apply e3
        exact hr.body (hp.body i1.ok (by omega))
      · exact e3 x hx
    | fail w2 cs2 _ _ hr2 => exact absurd (al hn hg hr hr2).1 (by simp)
  | fail w cs' hn hg hr =>
    cases h2 with
    | same ha hs => exact absurd ⟨ha, hs⟩ hn
    | grow c t hcs ha hs htip hfit => exact absurd ⟨ha, htip, hfit⟩ (hg c t hcs)
    | move s2 w2 cs2 _ _ hr2 => exact absurd (al hn hg hr hr2).1 (by simp)
    | fail w2 cs2 _ _ hr2 => exact al hn hg hr hr2

/-- How often the underlying allocator is asked. -/
theorem AllocRes.calls {w cs m l o w' cs'} (h : AllocRes w cs m l o w' cs') :
    (¬ NoFit cs l → w'.calls = w.calls) ∧ (NoFit cs l → chunkReq (rootCum cs) m l ≠ none → w'.calls = w.calls + 1) := by
  cases h with
  | fast c t a hcs hb => exact ⟨fun _ => rfl, fun hn => (bump_noFit hn hcs hb).elim⟩
  | slow hn h =>
    refine ⟨fun h' => absurd hn h', fun _ hr => ?_⟩
    cases h with
    | tooBig h => exact absurd h hr
    | refused => rfl
    | ok => rfl

theorem ResizeRes.calls {w cs m p old new o w' cs'} (h : ResizeRes w cs m p old new o w' cs') :
    (¬ NoFitResize cs p old new → w'.calls = w.calls) ∧
    (NoFitResize cs p old new → chunkReq (rootCum cs) m new ≠ none → w'.calls = w.calls + 1) := by
  cases h with
  | same ha hs => exact ⟨fun _ => rfl, fun hn => absurd ⟨ha, hs⟩ hn.1⟩
  | grow c t hcs ha hs htip hfit => exact ⟨fun _ => rfl, fun hn => absurd ⟨ha, htip, hfit⟩ (hn.2.1 c t hcs)⟩
  | move s w1 cs1 hn hg hr =>
    exact ⟨fun h' => hr.calls.1 fun hf => h' ⟨hn, hg, hf⟩, fun h' => hr.calls.2 h'.2.2⟩
  | fail w1 cs1 hn hg hr =>
    exact ⟨fun h' => hr.calls.1 fun hf => h' ⟨hn, hg, hf⟩, fun h' => hr.calls.2 h'.2.2⟩

/-! ### Calls of a `BlinkAlloc` with the same chunks -/

/-- No fault if the request is answered in a twin world. -/
theorem twin_answer {w1 w2 : World} {cs F} {m : Nat} {l : Layout} {o w1' cs1 e} (i1 : AInv w1 cs F) (i2 : AInv w2 cs F)
    (ht : w1.top = w2.top) (h1 : AllocRes w1 cs m l o w1' cs1) (ho : w1.oracle w1.calls = w2.oracle w2.calls)
    (hb : BadAnswer w2 e) (hn : NoFit cs l) (hq : ReqIs cs m l e) : False := by
  obtain ⟨l', sl, he, ho2, hf⟩ := hb
  obtain ⟨R, sl', hR, he'⟩ := hq
  rw [he] at he'
  injection he' with e1 e2
  subst e1; subst e2
  cases h1 with
  | fast c t a hcs hb => exact bump_noFit hn hcs hb
  | slow _ h1 =>
    cases h1 with
    | tooBig h => rw [hR] at h; cases h
    | refused R' h ho1 => rw [ho, ho2] at ho1; cases ho1
    | ok R' sl2 m' h ho1 hf1 =>
      rw [hR] at h; injection h with h; subst h
      rw [ho, ho2] at ho1; injection ho1 with ho1; subst ho1
      rw [freshOk_congr (i1.perm.trans i2.perm.symm) ht hf1] at hf
      cases hf

theorem Inv.twin_allocate {s0 s : St} {cs L} (h : Inv s0 s cs L) {V V' : World} {cs' l o} (hl : l.Valid) (hV : AInv V cs s0.w.held)
    (ht : V.top = s.w.top) (hr : AllocRes V cs s.a.minChunk l o V' cs') (ho : NoFit cs l → V.oracle V.calls = s.w.oracle s.w.calls)
    (hm : SameBody cs V.mem s.w.mem) :
    ∃ s', Blink.step s (.allocate l) = .ok (Resp.ofOption o, s') ∧ s'.a = ⟨rootOf cs', s.a.minChunk⟩ ∧
      (∀ L', After L (.allocate l) (Resp.ofOption o) L' → Inv s0 s' cs' L') ∧ SameBody cs' V'.mem s'.w.mem ∧
      AllocRes s.w cs s.a.minChunk l o s'.w cs' := by
  rcases h.step' (.allocate hl) with ⟨e, ⟨hb, hn, hq⟩, _⟩ | ⟨r, s', cs2, he, ⟨o2, hr2, hres⟩, hi⟩
  · exact (twin_answer hV h.arena ht hr (ho hn) hb hn hq).elim
  · obtain ⟨e1, e2, e3⟩ := AllocRes.twin hV hr hres ho hm
    subst e1; subst e2; subst hr2
    refine ⟨s', he, ?_, hi, e3, hres⟩
    have : ∃ L', After L (.allocate l) (Resp.ofOption o) L' := by
      cases o with
      | none => exact ⟨_, .allocErr⟩
      | some b => exact ⟨_, .allocOk⟩
    obtain ⟨L', hL'⟩ := this
    have hi' := hi L' hL'
    rw [hi'.eta, hi'.min, h.min]

theorem Inv.twin_resize {s0 s : St} {cs L} (h : Inv s0 s cs L) {V V' : World} {cs' b p old new o} (hb : b ∈ L) (hf : b.Fits p old)
    (hl : new.Valid) (hV : AInv V cs s0.w.held)
    (ht : V.top = s.w.top) (hr : ResizeRes V cs s.a.minChunk p old new o V' cs')
    (ho : NoFitResize cs p old new → V.oracle V.calls = s.w.oracle s.w.calls) (hm : SameBody cs V.mem s.w.mem) :
    ∃ s', Blink.step s (.resize p old new) = .ok (Resp.ofOption o, s') ∧ s'.a = ⟨rootOf cs', s.a.minChunk⟩ ∧
      (∀ L', After L (.resize p old new) (Resp.ofOption o) L' → Inv s0 s' cs' L') ∧ SameBody cs' V'.mem s'.w.mem ∧
      ResizeRes s.w cs s.a.minChunk p old new o s'.w cs' := by
  have hu : InUsed cs p old.size := by
    obtain ⟨f1, f2, f3, f4⟩ := hf
    exact (h.led.each b hb).2.2.2.sub (by omega) (by omega)
  rcases h.step' (.resize hb hf hl) with ⟨e, ⟨hbad, hn, hq⟩, _⟩ | ⟨r, s', cs2, he, ⟨o2, hr2, hres⟩, hi⟩
  · exfalso
    cases hr with
    | same ha hs => exact hn.1 ⟨ha, hs⟩
    | grow c t hcs ha hs htip hfit => exact hn.2.1 c t hcs ⟨ha, htip, hfit⟩
    | move s1 w1 cs1 _ _ hr => exact twin_answer hV h.arena ht hr (ho hn) hbad hn.2.2 hq
    | fail w1 cs1 _ _ hr => exact twin_answer hV h.arena ht hr (ho hn) hbad hn.2.2 hq
  · obtain ⟨e1, e2, e3⟩ := ResizeRes.twin hV hu hr hres ho hm
    subst e1; subst e2; subst hr2
    refine ⟨s', he, ?_, hi, e3, hres⟩
    have : ∃ L', After L (.resize p old new) (Resp.ofOption o) L' := by
      cases o with
      | none => exact ⟨_, .resizeErr⟩
      | some s => exact ⟨_, .resizeOk hb hf⟩
    obtain ⟨L', hL'⟩ := this
    have hi' := hi L' hL'
    rw [hi'.eta, hi'.min, h.min]

theorem Inv.twin_reset {s0 s : St} {cs L} (h : Inv s0 s cs L) :
    ∃ s', Blink.step s .reset = .ok (.unit, s') ∧ s'.a = ⟨rootOf (resetChunks cs), s.a.minChunk⟩ ∧ Inv s0 s' (resetChunks cs) [] ∧
      SameBody (resetChunks cs) s.w.mem s'.w.mem ∧ s'.w.calls = s.w.calls := by
  rcases h.step' .reset with ⟨e, ⟨hbad, hn⟩, _⟩ | ⟨r, s', cs2, he, ⟨h1, h2, h3⟩, hi⟩
  · exact hn.elim
  · subst h1; subst h3
    have hi' := hi [] .reset
    refine ⟨s', he, by rw [hi'.eta, hi'.min, h.min], hi', ?_, ?_⟩
    · rw [h2]
      cases cs with
      | nil => rintro x ⟨c, hc, _⟩; cases hc
      | cons c t =>
        rintro x ⟨d, hd, h4, h5⟩
        simp only [resetChunks, List.mem_singleton] at hd
        subst hd
        simp only [Chunk.rewind] at h4 h5
        have hok := h.arena.ok
        have hp := h.arena.pairwise
        simp only [resetWorld]
        rw [freeAll_mem (fun e he => by have h6 := hok e (List.mem_cons_of_mem _ he); have := h6.lo; have := h6.hi; omega)]
        · simp only [rewound]
          rw [setBytes_out (by omega), setBytes_out (by omega), setBytes_out (by omega)]
        · intro e he
          have hpw := (List.pairwise_append.mp hp).1
          rw [List.map_cons, List.pairwise_cons] at hpw
          have hsep := hpw.1 e.blk (List.mem_map_of_mem he)
          have := (hok e (List.mem_cons_of_mem _ he)).lo
          have := (hok e (List.mem_cons_of_mem _ he)).hi
          have := (hok c List.mem_cons_self).lo
          have := (hok c List.mem_cons_self).hi
          simp only [BaseBlk.Disjoint, Chunk.blk] at hsep
          omega
    · rw [h2]
      cases cs with
      | nil => rfl
      | cons c t => simp only [resetWorld]; rw [(freeAll_fields _ _).2.1]; rfl

end Blink
