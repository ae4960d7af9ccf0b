import Verif.Proofs.Global
/-
  One call of a global allocator with two modes.
-/
namespace Blink

/-- What a call does, apart from the invariant. -/
structure GRes (K : GBook) (op : GOp) (r : GResp) (g g' : GS) : Prop where
  keep : ∀ b ∈ K.all, ¬ GivesUp K op r b → ∀ x, b.Has x → (∀ v, op ≠ .write x v) → g'.w.mem x = g.w.mem x
  copied : ∀ p l n q, op = .realloc p l n → r = .ptr q → q ≠ 0 → ∀ i, i < min l.size n → g'.w.mem (q + i) = g.w.mem (p + i)
  zeroed : ∀ l q, op = .allocZeroed l → r = .ptr q → q ≠ 0 → ∀ i, i < l.size → g'.w.mem (q + i) = .raw 0

/-- Everything wanted of one call. -/
def GGood (g0 g : GS) (K : GBook) (op : GOp) (x : Except Fault (GResp × GS)) : Prop :=
  (∃ e, GBad g op e ∧ x = .error e) ∨
  ∃ r g', x = .ok (r, g') ∧ GRes K op r g g' ∧ (∃ K', GAfter K op r K') ∧
    ∀ K', GAfter K op r K' → ∃ cs' D', GInv g0 g' cs' D' K'

theorem GInv.inv' {g0 g cs D K} (h : GInv g0 g cs D K) {g' : GS} {cs' : List Chunk} {L : List Owned}
    (hi : Inv (g0.origin D) ⟨g'.w, g'.a⟩ cs' L) (hd : g'.dlog = g.dlog) (he : g'.enabled = g.enabled)
    (hdbg : g'.w.debug = g.w.debug) (hc : g'.allocations = if g.w.debug then L.length else 0)
    (hs : ∀ b ∈ L, 0 < b.size ∧ b.len = b.size) : GInv g0 g' cs' D { K with blink := L } where
  inner := hi
  mode := he.trans h.mode
  perm := h.perm
  good := h.good
  cnt := by rw [hdbg]; exact hc
  sz := hs
  dlg := by rw [hd]; exact h.dlg
  dbg := hdbg.trans h.dbg

/-! ### Calls of the `BlinkAlloc` -/

/-- A call of the `BlinkAlloc`. -/
theorem GInv.call {g0 g cs D K} (h : GInv g0 g cs D K) {op : Op} (hl : Legal K.blink op) :
    (∃ e, BadAnswer g.w e ∧ g.inner op = .error e) ∨
    ∃ r g' cs', g.inner op = .ok (r, g') ∧ step ⟨g.w, g.a⟩ op = .ok (r, ⟨g'.w, g'.a⟩) ∧
      g'.dlog = g.dlog ∧ g'.enabled = g.enabled ∧ g'.allocations = g.allocations ∧
      g'.w.debug = g.w.debug ∧ OpRes g.w cs g.a.minChunk op r g'.w cs' ∧
      (∀ L', After K.blink op r L' → Inv (g0.origin D) ⟨g'.w, g'.a⟩ cs' L') ∧
      ((∃ L', After K.blink op r L') → (∀ x v, op ≠ .write x v) → ∀ b ∈ K.direct, ∀ x, b.Has x → g'.w.mem x = g.w.mem x) := by
  rcases h.inner.step hl with ⟨e, hb, he⟩ | ⟨r, s', cs', he, hr, hi⟩
  · exact .inl ⟨e, hb, by unfold GS.inner; rw [ebind_err' he]⟩
  · right
    refine ⟨r, { g with w := s'.w, a := s'.a }, cs', ?_, he, rfl, rfl, rfl, hr.consts.1, hr, hi, ?_⟩
    · unfold GS.inner; rw [ebind_ok' he]; rfl
    · rintro ⟨L', ha⟩ hop b hb x hx
      obtain ⟨d, hd, rfl⟩ := h.direct_mem hb
      have hI := hi L' ha
      have hdF : d ∈ (g0.origin D).w.held := List.mem_append_left _ hd
      have hlen := (h.good d hd).len
      have hx' : d.addr ≤ x ∧ x < d.addr + d.len := ⟨hx.1, by
        have := hx.2; simp only [BaseBlk.own, granted] at this; omega⟩
      refine hr.outside h.inner.arena hI.arena hl hop (fun c hc => ?_) (fun c hc => ?_)
      · have := h.inner.arena.foreign hdF hc; omega
      · have := hI.arena.foreign hdF hc; omega

theorem Keep.append {L L' : List Owned} {m m' : Nat → Byte} (h : Keep L m m') (h' : Keep L' m m') : Keep (L ++ L') m m' :=
  fun o ho => (List.mem_append.mp ho).elim (h o) (h' o)

/-- The end of `alloc` and `alloc_zeroed` in blink mode. -/
theorem GInv.grant {g0 g cs D K} (h : GInv g0 g cs D K) (hm : K.blinkMode = true) {l : Layout} (hz : 0 < l.size) {op : GOp}
    (hop : op = .alloc l ∨ op = .allocZeroed l) {o : Option Slice} {g' : GS} {cs' : List Chunk}
    (hd : g'.dlog = g.dlog) (he : g'.enabled = g.enabled) (hc : g'.allocations = g.allocations) (hdbg : g'.w.debug = g.w.debug)
    (hk : Keep K.all g.w.mem g'.w.mem)
    (hn : o = none → Inv (g0.origin D) ⟨g'.w, g'.a⟩ cs' K.blink)
    (hs : ∀ s, o = some s → Inv (g0.origin D) ⟨g'.w, g'.a⟩ cs' (Owned.of s l :: K.blink) ∧ l.size ≤ s.len ∧
      (op = .allocZeroed l → ∀ i, i < l.size → g'.w.mem (s.addr + i) = .raw 0)) :
    GGood g0 g K op (g'.granted (.ofOption o)) := by
  right
  cases o with
  | none =>
    refine ⟨.ptr 0, g', rfl, ⟨fun b hb _ x hx _ => hk b hb x hx, ?_, ?_⟩, ?_, ?_⟩
    · rintro _ _ _ _ _ ⟨⟩ h; exact absurd rfl h
    · rintro _ _ _ ⟨⟩ h; exact absurd rfl h
    · rcases hop with rfl | rfl
      · exact ⟨_, .allocNull⟩
      · exact ⟨_, .zeroedNull⟩
    · have key : GInv g0 g' cs' D K := h.inv' (hn rfl) hd he hdbg (by rw [hc]; exact h.cnt) h.sz
      intro K' ha
      rcases hop with rfl | rfl <;> cases ha <;> first | exact absurd rfl ‹_› | exact ⟨_, _, key⟩
  | some s =>
    obtain ⟨hi, hle, hzr⟩ := hs s rfl
    have hi' : Inv (g0.origin D) ⟨g'.w, g'.a⟩ cs' (granted s.addr l :: K.blink) :=
      hi.trim rfl rfl rfl (Nat.le_refl _) hle
    have hsz : ∀ b ∈ granted s.addr l :: K.blink, 0 < b.size ∧ b.len = b.size := by
      intro b hb
      rcases List.mem_cons.mp hb with rfl | hb
      · exact ⟨hz, rfl⟩
      · exact h.sz b hb
    have hcb := count_bound hi'.arena hi'.led fun b hb => (hsz b hb).1
    have hpos := hi.pos List.mem_cons_self
    simp only [Owned.of] at hpos
    have hKadd : K.add (granted s.addr l) = { K with blink := granted s.addr l :: K.blink } := by
      unfold GBook.add; rw [if_pos hm]
    obtain ⟨g2, hg2, e1, e2, e3, e4, e5⟩ : ∃ g2, g'.granted (.ofOption (some s)) = .ok (.ptr s.addr, g2) ∧ g2.w = g'.w ∧ g2.a = g'.a ∧
        g2.dlog = g'.dlog ∧ g2.enabled = g'.enabled ∧ g2.allocations = if g.w.debug then K.blink.length + 1 else 0 := by
      unfold GS.granted Resp.ofOption
      dsimp only
      by_cases hb : g.w.debug = true
      · have h1 := h.cnt
        rw [if_pos hb] at h1
        rw [if_pos ⟨by rw [hdbg]; exact hb, by rw [he, h.mode]; exact hm⟩, if_pos (by
          simp only [List.length_cons] at hcb; rw [hc, h1]; omega)]
        exact ⟨_, rfl, rfl, rfl, rfl, rfl, by rw [if_pos hb]; dsimp only; rw [hc, h1]⟩
      · have h1 := h.cnt
        rw [if_neg hb] at h1
        rw [if_neg (by rw [hdbg]; exact fun h => hb h.1)]
        exact ⟨_, rfl, rfl, rfl, rfl, rfl, by rw [if_neg hb, hc, h1]⟩
    have key : GInv g0 g2 cs' D (K.add (granted s.addr l)) := by
      rw [hKadd]
      exact h.inv' (by rw [e1, e2]; exact hi') (e3.trans hd) (e4.trans he) (by rw [e1]; exact hdbg) (by rw [e5]; rfl) hsz
    refine ⟨_, g2, hg2, ⟨fun b hb _ x hx _ => by rw [e1]; exact hk b hb x hx, ?_, ?_⟩, ?_, ?_⟩
    · rcases hop with rfl | rfl <;> (rintro _ _ _ _ ⟨⟩)
    · rcases hop with rfl | rfl
      · rintro _ _ ⟨⟩
      · rintro _ _ ⟨⟩ ⟨⟩ _ i hi
        rw [e1]; exact hzr rfl i hi
    · rcases hop with rfl | rfl
      · exact ⟨_, .allocOk (by omega)⟩
      · exact ⟨_, .zeroedOk (by omega)⟩
    · intro K' ha
      have key' := key
      generalize hp : s.addr = p at ha hpos key'
      rcases hop with rfl | rfl <;> cases ha <;> first | exact absurd hpos (by omega) | exact ⟨_, _, key'⟩

theorem GInv.blinkAlloc {g0 g cs D K} (h : GInv g0 g cs D K) (hm : K.blinkMode = true) {l : Layout} (hl : l.Valid) (hz : 0 < l.size) :
    GGood g0 g K (.alloc l) (gstep g (.alloc l)) := by
  unfold gstep
  dsimp only
  have hen : g.enabled = true := h.mode.trans hm
  rcases h.call (.allocate hl) with ⟨e, hb, he⟩ | ⟨r, g', cs', he, hst, h1, h2, h3, h4, ⟨o, ho, hr⟩, hi, hk⟩
  · exact .inl ⟨e, hb, by unfold GS.allocate; rw [if_pos hen, ebind_err' he]⟩
  · unfold GS.allocate
    rw [if_pos hen, ebind_ok' he]
    subst ho
    have hA : ∃ L', After K.blink (.allocate l) (Resp.ofOption o) L' := by cases o with
      | none => exact ⟨_, .allocErr⟩
      | some s => exact ⟨_, .allocOk⟩
    refine h.grant hm hz (.inl rfl) h1 h2 h3 h4 (cs' := cs') ((h.inner.keep (.allocate hl) hst (by simp)).append (hk hA (by simp))) ?_ ?_
    · rintro rfl; exact hi _ .allocErr
    · rintro s rfl
      exact ⟨hi _ .allocOk, Nat.le_of_eq (hr.fresh h.inner.arena hl).1.symm, by simp⟩

theorem GInv.blinkZeroed {g0 g cs D K} (h : GInv g0 g cs D K) (hm : K.blinkMode = true) {l : Layout} (hl : l.Valid) (hz : 0 < l.size) :
    GGood g0 g K (.allocZeroed l) (gstep g (.allocZeroed l)) := by
  unfold gstep
  dsimp only
  have hen : g.enabled = true := h.mode.trans hm
  rcases h.call (.allocateZeroed hl) with ⟨e, hb, he⟩ | ⟨r, g', cs', he, hst, h1, h2, h3, h4, ⟨o, w1, ho, hr, hw⟩, hi, hk⟩
  · exact .inl ⟨e, hb, by unfold GS.allocateZeroed; rw [if_pos hen, ebind_err' he]⟩
  · unfold GS.allocateZeroed
    rw [if_pos hen, ebind_ok' he]
    subst ho
    have hA : ∃ L', After K.blink (.allocateZeroed l) (Resp.ofOption o) L' := by cases o with
      | none => exact ⟨_, .zeroedErr⟩
      | some s => exact ⟨_, .zeroedOk⟩
    refine h.grant hm hz (.inr rfl) h1 h2 h3 h4 (cs' := cs') ((h.inner.keep (.allocateZeroed hl) hst (by simp)).append (hk hA (by simp))) ?_ ?_
    · rintro rfl; exact hi _ .zeroedErr
    · rintro s rfl
      have hlen := (hr.fresh h.inner.arena hl).1
      refine ⟨hi _ .zeroedOk, Nat.le_of_eq hlen.symm, fun _ i hi => ?_⟩
      simp only at hw
      rw [hw]
      exact setBytes_in (m := w1.mem) (f := fun _ => .raw 0) (by omega)

theorem GInv.blinkFits {g0 g cs D K} (h : GInv g0 g cs D K) {b : Owned} (hb : b ∈ K.blink) {p : Nat} {l : Layout} (hi : b.Is p l) :
    b.Fits p l := by
  have := h.sz b hb
  exact ⟨hi.1, hi.2.2, by have := hi.2.1; omega, by have := hi.2.1; omega⟩

theorem layoutFrom_valid {n a : Nat} {l : Layout} (ha : ∃ k, a = 2 ^ k) (h : layoutFrom n a = some l) : l.Valid ∧ l = ⟨n, a⟩ := by
  unfold layoutFrom at h
  split at h
  · cases h; exact ⟨⟨ha, by assumption⟩, rfl⟩
  · cases h

theorem GBook.cur_all {K : GBook} {b : Owned} (h : b ∈ K.cur) : b ∈ K.all := by
  unfold GBook.cur at h
  split at h
  · exact List.mem_append_left _ h
  · exact List.mem_append_right _ h

/-- `realloc` to a size that makes no layout. -/
theorem GInv.reallocNone {g0 g cs D K} (h : GInv g0 g cs D K) {p n : Nat} {l : Layout} (hn : layoutFrom n l.align = none) :
    GGood g0 g K (.realloc p l n) (gstep g (.realloc p l n)) := by
  unfold gstep
  dsimp only
  rw [hn]
  refine .inr ⟨_, _, rfl, ⟨fun _ _ _ _ _ _ => rfl, ?_, ?_⟩, ⟨_, .reallocNull⟩, ?_⟩
  · rintro _ _ _ _ _ ⟨⟩ h; exact absurd rfl h
  · rintro _ _ ⟨⟩
  · intro K' ha
    cases ha with
    | reallocOk _ _ hq => exact absurd rfl hq
    | reallocNull => exact ⟨_, _, h⟩

theorem GInv.blinkRealloc {g0 g cs D K} (h : GInv g0 g cs D K) (hm : K.blinkMode = true) {b : Owned} {p n : Nat} {l : Layout}
    (hb : b ∈ K.cur) (hi : b.Is p l) (hz : 0 < n) : GGood g0 g K (.realloc p l n) (gstep g (.realloc p l n)) := by
  have hbb : b ∈ K.blink := by unfold GBook.cur at hb; rwa [if_pos hm] at hb
  have hen : g.enabled = true := h.mode.trans hm
  cases hn : layoutFrom n l.align with
  | none => exact h.reallocNone hn
  | some new =>
  obtain ⟨hv, rfl⟩ := layoutFrom_valid (hi.2.2 ▸ (h.inner.led.each b hbb).2.1) hn
  unfold gstep
  dsimp only
  rw [hn]
  dsimp only
  have hp : p ≠ 0 := by have := h.inner.pos hbb; have := hi.1; omega
  rw [if_neg hp]
  have hf := h.blinkFits hbb hi
  have hleg : Legal K.blink (.resize p l ⟨n, l.align⟩) := .resize hbb hf hv
  rcases h.call hleg with ⟨e, hbad, he⟩ | ⟨r, g', cs', he, hst, h1, h2, h3, h4, ⟨o, ho, hr⟩, hinv, hk⟩
  · refine .inl ⟨e, ?_, by unfold GS.resize; rw [if_pos hen, ebind_err' he]⟩
    unfold GBad
    dsimp only
    rw [if_pos hen]
    exact hbad
  · unfold GS.resize
    rw [if_pos hen, ebind_ok' he]
    subst ho
    right
    have hA : ∃ L', After K.blink (.resize p l ⟨n, l.align⟩) (Resp.ofOption o) L' := by cases o with
      | none => exact ⟨_, .resizeErr⟩
      | some s => exact ⟨_, .resizeOk hbb hf⟩
    have hkeep : Keep K.all g.w.mem g'.w.mem := (h.inner.keep hleg hst (by simp)).append (hk hA (by simp))
    cases o with
    | none =>
      refine ⟨_, g', rfl, ⟨fun b hb _ x hx _ => hkeep b hb x hx, ?_, ?_⟩, ⟨_, .reallocNull⟩, ?_⟩
      · rintro _ _ _ _ _ ⟨⟩ h; exact absurd rfl h
      · rintro _ _ ⟨⟩
      · have key : GInv g0 g' cs' D K := h.inv' (hinv _ .resizeErr) h1 h2 h4 (by rw [h3]; exact h.cnt) h.sz
        intro K' ha
        cases ha with
        | reallocOk _ _ hq => exact absurd rfl hq
        | reallocNull => exact ⟨_, _, key⟩
    | some s =>
      have hI := hinv _ (.resizeOk hbb hf)
      have hpos := hI.pos List.mem_cons_self
      have hI' : Inv (g0.origin D) ⟨g'.w, g'.a⟩ cs' (granted s.addr ⟨n, l.align⟩ :: K.blink.erase b) :=
        hI.trim rfl rfl rfl (Nat.le_refl _) (hI.led.each _ List.mem_cons_self).1
      have hsz : ∀ c ∈ granted s.addr ⟨n, l.align⟩ :: K.blink.erase b, 0 < c.size ∧ c.len = c.size := by
        intro c hc
        rcases List.mem_cons.mp hc with rfl | hc
        · exact ⟨hz, rfl⟩
        · exact h.sz c (List.mem_of_mem_erase hc)
      simp only [Owned.of] at hpos
      refine ⟨.ptr s.addr, g', rfl, ⟨fun b hb _ x hx _ => hkeep b hb x hx, ?_, ?_⟩, ⟨_, .reallocOk hb hi (by omega)⟩, ?_⟩
      · rintro _ _ _ _ ⟨⟩ ⟨⟩ _ i hi
        exact hr.contents h.inner.arena hv (InUsed.of_fits h.inner.led hbb hf) (by rw [Nat.min_comm]; exact hi)
      · rintro _ _ ⟨⟩
      · have key : GInv g0 g' cs' D ((K.del b).add (granted s.addr ⟨n, l.align⟩)) := by
          have e : (K.del b).add (granted s.addr ⟨n, l.align⟩) = { K with blink := granted s.addr ⟨n, l.align⟩ :: K.blink.erase b } := by
            unfold GBook.add GBook.del
            rw [if_pos hm]
            rw [if_pos (show ({ K with blink := K.blink.erase b } : GBook).blinkMode = true from hm)]
          rw [e]
          refine h.inv' hI' h1 h2 h4 ?_ hsz
          rw [h3, h.cnt]
          have := List.length_erase_of_mem hbb
          have := List.length_pos_of_mem hbb
          simp only [List.length_cons]
          congr 1
          omega
        have key' := key
        intro K' ha
        generalize hq : s.addr = q at ha hpos key'
        cases ha with
        | @reallocOk b' _ _ _ _ hb' hi' hq =>
          have : b' = b := h.addr_inj (GBook.cur_all hb') (GBook.cur_all hb) (by rw [hi'.1, hi.1])
          subst this
          exact ⟨_, _, key'⟩
        | reallocNull => exact absurd hpos (by omega)

theorem GInv.blinkDealloc {g0 g cs D K} (h : GInv g0 g cs D K) (hm : K.blinkMode = true) {b : Owned} {p : Nat} {l : Layout}
    (hb : b ∈ K.cur) (hi : b.Is p l) : GGood g0 g K (.dealloc p l) (gstep g (.dealloc p l)) := by
  have hbb : b ∈ K.blink := by unfold GBook.cur at hb; rwa [if_pos hm] at hb
  have hen : g.enabled = true := h.mode.trans hm
  have hp : p ≠ 0 := by have := h.inner.pos hbb; have := hi.1; omega
  unfold gstep
  dsimp only
  rw [if_neg hp]
  have hf := h.blinkFits hbb hi
  have hleg : Legal K.blink (.deallocate p l.size) := .deallocate hbb ⟨hf.1, hf.2.2.1, hf.2.2.2⟩
  rcases h.call hleg with ⟨e, hbad, he⟩ | ⟨r, g', cs', he, hst, h1, h2, h3, h4, ⟨ho, hw, _⟩, hinv, hk⟩
  · exact .inl ⟨e, hbad, by unfold GS.deallocate; rw [if_pos hen, ebind_err' he]; rfl⟩
  · right
    subst ho
    have hI := hinv _ (.deallocate hbb ⟨hf.1, hf.2.2.1, hf.2.2.2⟩)
    have hd : g.deallocate p l = .ok g' := by
      unfold GS.deallocate; rw [if_pos hen, ebind_ok' he]; rfl
    rw [ebind_ok' hd]
    obtain ⟨g2, hg2, e1, e2, e3, e4, e5⟩ : ∃ g2, (if g'.w.debug = true ∧ g'.enabled = true then
          (pure (GResp.unit, { g' with allocations := g'.allocations - 1 }) : Except Fault _) else pure (.unit, g')) = .ok (.unit, g2) ∧
        g2.w = g'.w ∧ g2.a = g'.a ∧ g2.dlog = g'.dlog ∧ g2.enabled = g'.enabled ∧
        g2.allocations = if g.w.debug then K.blink.length - 1 else 0 := by
      by_cases hb : g.w.debug = true
      · have hc := h.cnt
        rw [if_pos hb] at hc
        rw [if_pos ⟨by rw [h4]; exact hb, by rw [h2]; exact hen⟩]
        exact ⟨_, rfl, rfl, rfl, rfl, rfl, by rw [if_pos hb]; dsimp only; rw [h3, hc]⟩
      · have hc := h.cnt
        rw [if_neg hb] at hc
        rw [if_neg (by rw [h4]; exact fun h => hb h.1)]
        exact ⟨_, rfl, rfl, rfl, rfl, rfl, by rw [if_neg hb, h3, hc]⟩
    have key : GInv g0 g2 cs' D (K.del b) := by
      unfold GBook.del
      rw [if_pos hm]
      exact h.inv' (by rw [e1, e2]; exact hI) (e3.trans h1) (e4.trans h2) (by rw [e1]; exact h4)
        (by rw [e5, List.length_erase_of_mem hbb]) (fun c hc => h.sz c (List.mem_of_mem_erase hc))
    refine ⟨_, g2, hg2, ⟨fun _ _ _ x _ _ => by rw [e1, hw], ?_, ?_⟩, ⟨_, .dealloc hb hi⟩, ?_⟩
    · rintro _ _ _ _ ⟨⟩
    · rintro _ _ ⟨⟩
    · intro K' ha
      cases ha with
      | @dealloc b' _ _ hb' hi' =>
        have : b' = b := h.addr_inj (GBook.cur_all hb') (GBook.cur_all hb) (by rw [hi'.1, hi.1])
        subst this
        exact ⟨_, _, key⟩

/-! ### Modes and writes -/

/-- `reset`: it panics in a debug build with blocks outstanding, otherwise the `BlinkAlloc` is reset. -/
theorem GInv.resetCases {g0 g cs D K} (h : GInv g0 g cs D K) :
    (g.w.debug = true ∧ K.blink ≠ [] ∧ g.reset = .ok (.panicked, g)) ∨
    (¬ (g.w.debug = true ∧ K.blink ≠ []) ∧ ∃ g' cs', g.reset = .ok (.unit, g') ∧ step ⟨g.w, g.a⟩ .reset = .ok (.unit, ⟨g'.w, g'.a⟩) ∧
      g'.dlog = g.dlog ∧ g'.enabled = g.enabled ∧ GInv g0 g' cs' D { K with blink := [] } ∧
      g'.w = resetWorld g.w cs ∧ cs' = resetChunks cs ∧
      ∀ b ∈ K.direct, ∀ x, b.Has x → g'.w.mem x = g.w.mem x) := by
  unfold GS.reset
  by_cases hc : g.w.debug = true ∧ K.blink ≠ []
  · left
    refine ⟨hc.1, hc.2, ?_⟩
    rw [if_pos]
    · rfl
    · refine ⟨hc.1, ?_⟩
      rw [h.cnt, if_pos hc.1]
      exact fun h => hc.2 (List.eq_nil_of_length_eq_zero h)
  · right
    refine ⟨hc, ?_⟩
    rw [if_neg]
    · have hns : ∀ e, step ⟨g.w, g.a⟩ .reset ≠ .error e := by
        intro e he
        obtain ⟨s', cs', he', _⟩ := h.inner.reset
        rw [he'] at he; cases he
      rcases h.call .reset with ⟨e, hbad, he⟩ | ⟨r, g', cs', he, hst, h1, h2, h3, h4, ⟨ho, hw, hcs⟩, hinv, hk⟩
      · unfold GS.inner at he
        cases hx : step ⟨g.w, g.a⟩ .reset with
        | error e' => exact absurd hx (hns e')
        | ok x => rw [ebind_ok' hx] at he; cases he
      · subst ho
        rw [ebind_ok' he]
        refine ⟨g', cs', rfl, hst, h1, h2, h.inv' (hinv _ .reset) h1 h2 h4 ?_ (by simp), hw, hcs, hk ⟨_, .reset⟩ (by simp)⟩
        rw [h3, h.cnt]
        by_cases hd : g.w.debug = true
        · rw [if_pos hd, if_pos hd]
          have : K.blink = [] := Decidable.byContradiction fun hne => hc ⟨hd, hne⟩
          rw [this]
        · rw [if_neg hd, if_neg hd]
    · rintro ⟨h1, h2⟩
      apply hc
      refine ⟨h1, ?_⟩
      rw [h.cnt, if_pos h1] at h2
      intro he
      rw [he] at h2
      exact h2 rfl

theorem GInv.resetStep {g0 g cs D K} (h : GInv g0 g cs D K) : GGood g0 g K .reset (gstep g .reset) := by
  right
  unfold gstep
  dsimp only
  rcases h.resetCases with ⟨_, _, he⟩ | ⟨_, g', cs', he, _, _, _, hi, _, _, hk⟩
  · refine ⟨_, _, he, ⟨fun _ _ _ _ _ _ => rfl, (by rintro _ _ _ _ ⟨⟩), (by rintro _ _ ⟨⟩)⟩, ⟨_, .resetPanic⟩, ?_⟩
    intro K' ha; cases ha; exact ⟨_, _, h⟩
  · refine ⟨_, _, he, ⟨?_, (by rintro _ _ _ _ ⟨⟩), (by rintro _ _ ⟨⟩)⟩, ⟨_, .reset⟩, ?_⟩
    · intro b hb hn x hx _
      rcases List.mem_append.mp hb with hb | hb
      · exact absurd hb hn
      · exact hk b hb x hx
    · intro K' ha; cases ha; exact ⟨_, _, hi⟩

theorem GInv.directStep {g0 g cs D K} (h : GInv g0 g cs D K) : GGood g0 g K .directMode (gstep g .directMode) := by
  right
  unfold gstep
  dsimp only
  rcases h.resetCases with ⟨_, _, he⟩ | ⟨_, g', cs', he, _, _, _, hi, _, _, hk⟩
  · rw [ebind_ok' he]
    refine ⟨_, _, rfl, ⟨fun _ _ _ _ _ _ => rfl, (by rintro _ _ _ _ ⟨⟩), (by rintro _ _ ⟨⟩)⟩, ⟨_, .directPanic⟩, ?_⟩
    intro K' ha; cases ha; exact ⟨_, _, h⟩
  · rw [ebind_ok' he]
    refine ⟨_, _, rfl, ⟨?_, (by rintro _ _ _ _ ⟨⟩), (by rintro _ _ ⟨⟩)⟩, ⟨_, .directMode⟩, ?_⟩
    · intro b hb hn x hx _
      rcases List.mem_append.mp hb with hb | hb
      · exact absurd hb hn
      · exact hk b hb x hx
    · intro K' ha; cases ha; exact ⟨_, _, { hi with mode := rfl }⟩

theorem GInv.blinkStep {g0 g cs D K} (h : GInv g0 g cs D K) : GGood g0 g K .blinkMode (gstep g .blinkMode) := by
  right
  refine ⟨_, _, rfl, ⟨fun _ _ _ _ _ _ => rfl, (by rintro _ _ _ _ ⟨⟩), (by rintro _ _ ⟨⟩)⟩, ⟨_, .blinkMode⟩, ?_⟩
  intro K' ha; cases ha; exact ⟨_, _, { h with mode := rfl }⟩

theorem GInv.writeStep {g0 g cs D K} (h : GInv g0 g cs D K) {b : Owned} {x : Nat} {v : Byte} (hb : b ∈ K.all) (hx : b.Has x) :
    GGood g0 g K (.write x v) (gstep g (.write x v)) := by
  right
  have key : GInv g0 { g with w := { g.w with mem := setBytes g.w.mem x 1 (fun _ => v) } } cs D K := by
    rcases List.mem_append.mp hb with hb | hb
    · exact { h with inner := h.inner.setMem hb hx.1 (by have := hx.2; omega) }
    · obtain ⟨d, hd, rfl⟩ := h.direct_mem hb
      refine { h with inner := { h.inner with arena := h.inner.arena.setMem ?_ } }
      intro c hc y h1 h2
      apply setBytes_out
      have h3 := h.inner.arena.foreign (List.mem_append_left _ hd) hc
      have h4 := (h.good d hd).len
      have hok := h.inner.arena.ok c hc
      have := hok.lo; have := hok.hi
      simp only [BaseBlk.own, granted, Owned.Has] at hx
      omega
  refine ⟨_, _, rfl, ⟨?_, (by rintro _ _ _ _ ⟨⟩), (by rintro _ _ ⟨⟩)⟩, ⟨_, .write⟩, ?_⟩
  · intro c hc _ y hy hw
    apply setBytes_out (m := g.w.mem) (f := fun _ => v)
    apply Decidable.byContradiction
    intro hne
    exact hw v (by congr 1; omega)
  · intro K' ha; cases ha; exact ⟨_, _, key⟩

/-! ### Direct calls -/

/-- The call, if it returns, was passed on. -/
def GFwd (g : GS) (op : GOp) : Prop := ∀ r g', gstep g op = .ok (r, g') → Forwarded op r g g'

theorem GS.direct_ok {α} {g : GS} {x : M α} {a : α} {w' : World} (h : x { g.w with log := g.dlog } = .ok (a, w')) :
    g.direct x = .ok (a, { g with w := { w' with log := g.w.log }, dlog := w'.log }) := by
  unfold GS.direct
  rw [ebind_ok' h]
  rfl

theorem GS.direct_err {α} {g : GS} {x : M α} {e : Fault} (h : x { g.w with log := g.dlog } = .error e) :
    g.direct x = .error e := by
  unfold GS.direct
  rw [ebind_err' h]

theorem GInv.keepDirect {g0 g cs D K} (h : GInv g0 g cs D K) {d? : Option BaseBlk} (hd : ∀ d, d? = some d → d ∈ D) {m' : Nat → Byte}
    (hm : ∀ x, Elsewhere { g.w with log := g.dlog } d? x → m' x = g.w.mem x) :
    ∀ b ∈ K.all, (∀ d, d? = some d → b.addr ≠ d.addr) → ∀ x, b.Has x → m' x = g.w.mem x :=
  fun _ hb hne _ hx => hm _ (h.all_elsewhere hd hb hne hx)

/-- The end of `alloc` and `alloc_zeroed` in direct mode. -/
theorem GInv.grantDirect {g0 g cs D K} (h : GInv g0 g cs D K) (hm : K.blinkMode = false) {l : Layout} (hl : l.Valid) (hz : 0 < l.size)
    {op : GOp} {z : Bool} (hop : (z = false ∧ op = .alloc l) ∨ (z = true ∧ op = .allocZeroed l)) {o : Option Slice} {w' : World}
    (hr : DAlloc { g.w with log := g.dlog } l z o w') (g' : GS)
    (hg' : g' = { g with w := { w' with log := g.w.log }, dlog := w'.log }) :
    GGood g0 g K op (g'.granted (.ofOption o)) ∧ ∀ r g2, g'.granted (.ofOption o) = .ok (r, g2) → Forwarded op r g g2 := by
  have hen : g'.enabled = false := by rw [hg']; exact h.mode.trans hm
  have hgr : ∀ r, g'.granted r = .ok (GResp.ofResp r, g') := by
    intro r
    unfold GS.granted GResp.ofResp
    cases r with
    | block s => dsimp only; rw [if_neg (by rw [hen]; simp)]; rfl
    | _ => rfl
  rw [hgr]
  have hcst := hr.consts
  cases o with
  | none =>
    obtain ⟨h1, h2, h3⟩ := hr.none_inv h.dinv
    have hlog : w'.log = .refused l :: g.dlog ∧ g.w.oracle g.w.calls = none := by cases hr with | refused ho => exact ⟨rfl, ho⟩
    constructor
    · refine .inr ⟨.ptr 0, g', rfl, ⟨fun b hb _ x hx _ => by rw [hg']; exact congrFun h2 x, ?_, ?_⟩, ?_, ?_⟩
      · rintro _ _ _ _ _ ⟨⟩ h; exact absurd rfl h
      · rintro _ _ _ ⟨⟩ h; exact absurd rfl h
      · rcases hop with ⟨_, rfl⟩ | ⟨_, rfl⟩
        · exact ⟨_, .allocNull⟩
        · exact ⟨_, .zeroedNull⟩
      · have key : GInv g0 g' cs D K := by
          have := h.rebase (dl := K.direct) h1 hcst.1 hcst.2.1 hcst.2.2.1 (by rw [hlog.1]; exact h.dlg.refused) h.perm
          rw [hg']; exact this
        intro K' ha
        rcases hop with ⟨_, rfl⟩ | ⟨_, rfl⟩ <;> cases ha <;> first | exact absurd rfl ‹_› | exact ⟨_, _, key⟩
    · rintro r g2 ⟨⟩
      refine ⟨by rw [hg'], by rw [hg'], ?_⟩
      have : g'.dlog = .refused l :: g.dlog := by rw [hg']; exact hlog.1
      rcases hop with ⟨_, rfl⟩ | ⟨_, rfl⟩ <;> exact .inl ⟨hlog.2, rfl, this⟩
  | some s =>
    obtain ⟨h1, h2, h3⟩ := hr.inv h.dinv hl hz
    have hlog : w'.log = .alloc l s :: g.dlog ∧ g.w.oracle g.w.calls = some s := by cases hr with | given _ _ ho => exact ⟨rfl, ho⟩
    have hzr : z = true → ∀ i, i < l.size → w'.mem (s.addr + i) = .raw 0 := by
      cases hr with
      | given _ m' ho hf hm hz' =>
        intro hz i hi
        exact hz' hz i (by have := (freshOk_facts hf).2.2.1; omega)
    have hKadd : K.add (granted s.addr l) = { K with direct := granted s.addr l :: K.direct } := by
      unfold GBook.add; rw [if_neg (by rw [hm]; simp)]
    constructor
    · refine .inr ⟨.ptr s.addr, g', rfl, ⟨fun b hb _ x hx _ => ?_, ?_, ?_⟩, ?_, ?_⟩
      · rw [hg']; exact h.keepDirect (d? := none) (by simp) h3 b hb (by simp) x hx
      · rcases hop with ⟨_, rfl⟩ | ⟨_, rfl⟩ <;> (rintro _ _ _ _ ⟨⟩)
      · rcases hop with ⟨_, rfl⟩ | ⟨hzt, rfl⟩
        · rintro _ _ ⟨⟩
        · rintro _ _ ⟨⟩ ⟨⟩ _ i hi
          rw [hg']; exact hzr hzt i hi
      · rcases hop with ⟨_, rfl⟩ | ⟨_, rfl⟩
        · exact ⟨_, .allocOk (by omega)⟩
        · exact ⟨_, .zeroedOk (by omega)⟩
      · have key : GInv g0 g' cs (⟨s.addr, s.len, l⟩ :: D) (K.add (granted s.addr l)) := by
          rw [hKadd]
          have := h.rebase (dl := granted s.addr l :: K.direct) h1 hcst.1 hcst.2.1 hcst.2.2.1 (by rw [hlog.1]; exact h.dlg.alloc) (h.perm.cons _)
          rw [hg']; exact this
        intro K' ha
        have key' := key
        generalize hq : s.addr = q at ha key' h2
        have hq0 : q ≠ 0 := by omega
        have : ∃ D', GInv g0 g' cs D' (K.add (granted q l)) := ⟨_, key'⟩
        rcases hop with ⟨_, rfl⟩ | ⟨_, rfl⟩ <;> cases ha <;> first | exact absurd rfl hq0 | exact ⟨_, this⟩
    · rintro r g2 ⟨⟩
      refine ⟨by rw [hg'], by rw [hg'], ?_⟩
      have : g'.dlog = .alloc l s :: g.dlog := by rw [hg']; exact hlog.1
      have hne : s.addr ≠ 0 := by omega
      rcases hop with ⟨_, rfl⟩ | ⟨_, rfl⟩ <;> exact .inr ⟨s, hlog.2, hne, rfl, this⟩

theorem GInv.directAlloc {g0 g cs D K} (h : GInv g0 g cs D K) (hm : K.blinkMode = false) {l : Layout} (hl : l.Valid) (hz : 0 < l.size) :
    GGood g0 g K (.alloc l) (gstep g (.alloc l)) ∧ GFwd g (.alloc l) := by
  have hen : ¬ g.enabled = true := by rw [h.mode, hm]; simp
  rcases baseAlloc_dspec { g.w with log := g.dlog } l with ⟨e, hb, he⟩ | ⟨o, w', he, hr⟩
  · have : gstep g (.alloc l) = .error e := by
      unfold gstep GS.allocate
      dsimp only
      rw [if_neg hen, ebind_err' (ebind_err' (GS.direct_err he))]
    exact ⟨.inl ⟨e, hb, this⟩, fun r g' hg => by rw [this] at hg; cases hg⟩
  · have : gstep g (.alloc l) = GS.granted { g with w := { w' with log := g.w.log }, dlog := w'.log } (.ofOption o) := by
      unfold gstep GS.allocate
      dsimp only
      rw [if_neg hen, ebind_ok' (GS.direct_ok he)]
      rfl
    unfold GFwd
    rw [this]
    exact h.grantDirect hm hl hz (.inl ⟨rfl, rfl⟩) hr _ rfl

theorem GInv.directZeroed {g0 g cs D K} (h : GInv g0 g cs D K) (hm : K.blinkMode = false) {l : Layout} (hl : l.Valid) (hz : 0 < l.size) :
    GGood g0 g K (.allocZeroed l) (gstep g (.allocZeroed l)) ∧ GFwd g (.allocZeroed l) := by
  have hen : ¬ g.enabled = true := by rw [h.mode, hm]; simp
  rcases baseAllocZeroed_dspec { g.w with log := g.dlog } l with ⟨e, hb, he⟩ | ⟨o, w', he, hr⟩
  · have : gstep g (.allocZeroed l) = .error e := by
      unfold gstep GS.allocateZeroed
      dsimp only
      rw [if_neg hen, ebind_err' (ebind_err' (GS.direct_err he))]
    exact ⟨.inl ⟨e, hb, this⟩, fun r g' hg => by rw [this] at hg; cases hg⟩
  · have : gstep g (.allocZeroed l) = GS.granted { g with w := { w' with log := g.w.log }, dlog := w'.log } (.ofOption o) := by
      unfold gstep GS.allocateZeroed
      dsimp only
      rw [if_neg hen, ebind_ok' (GS.direct_ok he)]
      rfl
    unfold GFwd
    rw [this]
    exact h.grantDirect hm hl hz (.inr ⟨rfl, rfl⟩) hr _ rfl

theorem GInv.directBlock {g0 g cs D K} (h : GInv g0 g cs D K) (hm : K.blinkMode = false) {b : Owned} {p : Nat} {l : Layout}
    (hb : b ∈ K.cur) (hi : b.Is p l) : ∃ d ∈ D, b = d.own ∧ d.own ∈ K.direct ∧ d.addr = p ∧ d.req = l ∧ p ≠ 0 := by
  have hbd : b ∈ K.direct := by unfold GBook.cur at hb; rwa [if_neg (by rw [hm]; simp)] at hb
  obtain ⟨d, hd, rfl⟩ := h.direct_mem hbd
  refine ⟨d, hd, rfl, hbd, hi.1, ?_, ?_⟩
  · have h2 := hi.2.1; have h3 := hi.2.2
    simp only [BaseBlk.own, granted] at h2 h3
    cases l; cases hq : d.req; rw [hq] at h2 h3; simp only at h2 h3; rw [h2, h3]
  · have := h.direct_pos hd
    have h1 := hi.1
    simp only [BaseBlk.own, granted] at h1
    omega

theorem GInv.directDealloc {g0 g cs D K} (h : GInv g0 g cs D K) (hm : K.blinkMode = false) {b : Owned} {p : Nat} {l : Layout}
    (hb : b ∈ K.cur) (hi : b.Is p l) : GGood g0 g K (.dealloc p l) (gstep g (.dealloc p l)) ∧ GFwd g (.dealloc p l) := by
  have hen : ¬ g.enabled = true := by rw [h.mode, hm]; simp
  obtain ⟨d, hd, rfl, hbd, rfl, rfl, hp⟩ := h.directBlock hm hb hi
  have he := baseDealloc_dspec h.dinv hd
  obtain ⟨h1, h2⟩ := h.dinv.free hd
  obtain ⟨g', hg'⟩ : ∃ g' : GS, g' = { g with w := { freeDirect { g.w with log := g.dlog } d with log := g.w.log },
                                              dlog := (freeDirect { g.w with log := g.dlog } d).log } := ⟨_, rfl⟩
  have hs : gstep g (.dealloc d.addr d.req) = .ok (.unit, g') := by
    unfold gstep
    dsimp only
    have : g.deallocate d.addr d.req = .ok g' := by
      unfold GS.deallocate
      rw [if_neg hen, ebind_ok' (GS.direct_ok he), hg']
      rfl
    rw [if_neg hp, ebind_ok' this, if_neg]
    · rfl
    · rw [hg']; exact fun h => hen h.2
  unfold GFwd
  rw [hs]
  constructor
  · refine .inr ⟨_, _, rfl, ⟨fun b hb hn x hx _ => ?_, (by rintro _ _ _ _ ⟨⟩), (by rintro _ _ ⟨⟩)⟩, ⟨_, .dealloc hb hi⟩, ?_⟩
    · rw [hg']
      exact h.keepDirect (d? := some d) (by rintro _ ⟨⟩; exact hd) h2 b hb (by rintro _ ⟨⟩; exact hn) x hx
    · have key : GInv g0 g' cs (D.erase d) (K.del d.own) := by
        have e : K.del d.own = { K with direct := K.direct.erase d.own } := by unfold GBook.del; rw [if_neg (by rw [hm]; simp)]
        rw [e, hg']
        exact h.rebase h1 rfl rfl rfl (h.dlg.dealloc h.dinv hd) (h.perm_erase hd hbd)
      intro K' ha
      cases ha with
      | @dealloc b' _ _ hb' hi' =>
        have : b' = d.own := h.addr_inj (GBook.cur_all hb') (GBook.cur_all hb) (by rw [hi'.1, hi.1])
        subst this
        exact ⟨_, _, key⟩
  · rintro r g2 ⟨⟩
    exact ⟨by rw [hg'], by rw [hg'], rfl, by rw [hg']; rfl⟩

theorem find_eraseP {α} [BEq α] [LawfulBEq α] {p : α → Bool} {l : List α} {a : α} (h : l.find? p = some a) : l.eraseP p = l.erase a := by
  induction l with
  | nil => cases h
  | cons b t ih =>
    rw [List.find?_cons] at h
    split at h
    · cases h
      rw [List.eraseP_cons_of_pos (by assumption), List.erase_cons_head]
    · rename_i hp
      have hne : b ≠ a := by
        rintro rfl
        rw [List.find?_some h] at hp
        cases hp
      rw [List.eraseP_cons_of_neg (by rw [hp]; simp), List.erase_cons_tail (by simpa using hne), ih h]

/-- `realloc` in direct mode, if the size stays the same. -/
theorem GInv.directRealloc {g0 g cs D K} (h : GInv g0 g cs D K) (hm : K.blinkMode = false) {b : Owned} {p : Nat} {l : Layout}
    (hb : b ∈ K.cur) (hi : b.Is p l) (hz : 0 < l.size) (hv : l.size + l.align ≤ ISIZE) :
    GGood g0 g K (.realloc p l l.size) (gstep g (.realloc p l l.size)) ∧ GFwd g (.realloc p l l.size) := by
  have hen : ¬ g.enabled = true := by rw [h.mode, hm]; simp
  obtain ⟨d, hd, rfl, hbd, rfl, rfl, hp⟩ := h.directBlock hm hb hi
  have hval : d.req.Valid := ⟨(h.good d hd).pow, hv⟩
  have hlf : layoutFrom d.req.size d.req.align = some d.req := by unfold layoutFrom; rw [if_pos hv]
  have hs : gstep g (.realloc d.addr d.req d.req.size) = (g.direct (baseResize true d.addr d.req d.req) >>= fun x =>
      pure (GResp.ofResp (Resp.ofOption x.1), x.2)) := by
    unfold gstep
    dsimp only
    rw [hlf]
    dsimp only
    rw [if_neg hp]
    unfold GS.resize
    rw [if_neg hen, if_pos (Nat.le_refl _)]
    cases g.direct (baseResize true d.addr d.req d.req) <;> rfl
  unfold GFwd
  rw [hs]
  rcases baseResize_dspec h.dinv hd (g := true) (new := d.req) (by simp) with ⟨l', sl, ho, hf, he⟩ | ⟨o, w', he, hr⟩
  · rw [ebind_err' (GS.direct_err he)]
    refine ⟨.inl ⟨_, ?_, rfl⟩, (by rintro _ _ ⟨⟩)⟩
    unfold GBad
    dsimp only
    rw [if_neg hen, find_eraseP (h.dinv.arena.held.find (h.dinv.mem hd) (h.good d hd) rfl)]
    exact ⟨l', sl, rfl, ho, hf⟩
  · rw [ebind_ok' (GS.direct_ok he)]
    have hcst := hr.consts
    obtain ⟨g', hg'⟩ : ∃ g' : GS, g' = { g with w := { w' with log := g.w.log }, dlog := w'.log } := ⟨_, rfl⟩
    rw [← hg']
    dsimp only
    cases o with
    | none =>
      obtain ⟨h1, h2, h3⟩ := hr.none_inv h.dinv
      have hlog : w'.log = .refused d.req :: g.dlog ∧ g.w.oracle g.w.calls = none := by cases hr with | refused ho => exact ⟨rfl, ho⟩
      constructor
      · refine .inr ⟨.ptr 0, g', rfl, ⟨fun b hb _ x hx _ => by rw [hg']; exact congrFun h2 x, ?_, (by rintro _ _ ⟨⟩)⟩, ⟨_, .reallocNull⟩, ?_⟩
        · rintro _ _ _ _ _ ⟨⟩ h; exact absurd rfl h
        · have key : GInv g0 g' cs D K := by
            have := h.rebase (dl := K.direct) h1 hcst.1 hcst.2.1 hcst.2.2.1 (by rw [hlog.1]; exact h.dlg.refused) h.perm
            rw [hg']; exact this
          intro K' ha
          cases ha with
          | reallocOk _ _ hq => exact absurd rfl hq
          | reallocNull => exact ⟨_, _, key⟩
      · rintro r g2 ⟨⟩
        exact ⟨by rw [hg'], by rw [hg'], .inl ⟨hlog.2, rfl, by rw [hg']; exact hlog.1⟩⟩
    | some s =>
      obtain ⟨h1, h2, h3, h4⟩ := hr.inv h.dinv hd hval hz
      have hlog : w'.log = .alloc d.req s :: .dealloc d.addr d.req :: g.dlog ∧ g.w.oracle g.w.calls = some s := by
        cases hr with | given _ _ ho => exact ⟨rfl, ho⟩
      constructor
      · refine .inr ⟨.ptr s.addr, g', rfl, ⟨fun b hb hn x hx _ => ?_, ?_, (by rintro _ _ ⟨⟩)⟩, ⟨_, .reallocOk hb hi (by omega)⟩, ?_⟩
        · rw [hg']
          exact h.keepDirect (d? := some d) (by rintro _ ⟨⟩; exact hd) h3 b hb
            (by rintro _ ⟨⟩; exact fun he => hn ⟨by omega, he⟩) x hx
        · rintro _ _ _ _ ⟨⟩ ⟨⟩ _ i hi
          rw [hg']
          exact h4 i hi
        · have key : GInv g0 g' cs (⟨s.addr, s.len, d.req⟩ :: D.erase d) ((K.del d.own).add (granted s.addr d.req)) := by
            have e : (K.del d.own).add (granted s.addr d.req) = { K with direct := granted s.addr d.req :: K.direct.erase d.own } := by
              unfold GBook.add GBook.del
              rw [if_neg (by rw [hm]; simp)]
              rw [if_neg (by show ¬ K.blinkMode = true; rw [hm]; simp)]
            rw [e, hg']
            exact h.rebase h1 hcst.1 hcst.2.1 hcst.2.2.1 (by rw [hlog.1]; exact (h.dlg.dealloc h.dinv hd).alloc)
              ((h.perm_erase hd hbd).cons _)
          intro K' ha
          have key' := key
          generalize hq : s.addr = q at ha key' h2
          have hq0 : q ≠ 0 := by omega
          have : ∃ D', GInv g0 g' cs D' ((K.del d.own).add (granted q d.req)) := ⟨_, key'⟩
          cases ha with
          | @reallocOk b' _ _ _ _ hb' hi' hq =>
            have hbe : b' = d.own := h.addr_inj (GBook.cur_all hb') (GBook.cur_all hb) (by rw [hi'.1, hi.1])
            subst hbe
            exact ⟨_, this⟩
          | reallocNull => exact absurd rfl hq0
      · rintro r g2 ⟨⟩
        exact ⟨by rw [hg'], by rw [hg'], .inr ⟨s, hlog.2, by omega, rfl, by rw [hg']; exact hlog.1⟩⟩

/-! ### All calls -/

/-- The calls that respect the contract of the underlying allocator, too: in direct mode `realloc` must not change the size. -/
def Calm (K : GBook) : GOp → Prop
  | .realloc _ l n => K.blinkMode = true ∨ n = l.size ∨ ISIZE < n + l.align
  | _ => True

theorem GInv.step {g0 g cs D K} (h : GInv g0 g cs D K) {op : GOp} (hl : GLegal K op) (hc : Calm K op) :
    GGood g0 g K op (gstep g op) := by
  cases hm : K.blinkMode with
  | true =>
    cases hl with
    | alloc hv hz => exact h.blinkAlloc hm hv hz
    | allocZeroed hv hz => exact h.blinkZeroed hm hv hz
    | dealloc hb hi => exact h.blinkDealloc hm hb hi
    | realloc hb hi hz => exact h.blinkRealloc hm hb hi hz
    | reset => exact h.resetStep
    | blinkMode => exact h.blinkStep
    | directMode => exact h.directStep
    | write hb hx => exact h.writeStep hb hx
  | false =>
    cases hl with
    | alloc hv hz => exact (h.directAlloc hm hv hz).1
    | allocZeroed hv hz => exact (h.directZeroed hm hv hz).1
    | dealloc hb hi => exact (h.directDealloc hm hb hi).1
    | @realloc b p l n hb hi hz =>
      by_cases hn : ISIZE < n + l.align
      · exact h.reallocNone (by unfold layoutFrom; rw [if_neg (by omega)])
      · rcases hc with hc | rfl | hc
        · rw [hm] at hc; cases hc
        · exact (h.directRealloc hm hb hi hz (by omega)).1
        · exact absurd hc hn
    | reset => exact h.resetStep
    | blinkMode => exact h.blinkStep
    | directMode => exact h.directStep
    | write hb hx => exact h.writeStep hb hx

/-- A call in direct mode that changes the size of a block never returns normally. -/
theorem GInv.uncalm {g0 g cs D K} (h : GInv g0 g cs D K) {op : GOp} (hl : GLegal K op) (hc : ¬ Calm K op) :
    ∃ why, gstep g op = .error (.ub why) := by
  cases op with
  | realloc p l n =>
    cases hl with
    | @realloc b _ _ _ hb hi hz =>
      simp only [Calm, not_or] at hc
      obtain ⟨hm, hn, hlt⟩ := hc
      have hm : K.blinkMode = false := by simpa using hm
      have hen : ¬ g.enabled = true := by rw [h.mode, hm]; simp
      obtain ⟨d, hd, rfl, hbd, rfl, rfl, hp⟩ := h.directBlock hm hb hi
      have hfind := h.dinv.arena.held.find (h.dinv.mem hd) (h.good d hd) rfl
      have key : ∀ {gr why}, baseResize gr d.addr d.req ⟨n, d.req.align⟩ { g.w with log := g.dlog } = .error (.ub why) →
          (if n ≤ d.req.size then true else false) = gr → gstep g (.realloc d.addr d.req n) = .error (.ub why) := by
        intro gr why he hgr
        unfold gstep layoutFrom
        dsimp only
        rw [if_pos (by omega)]
        dsimp only
        rw [if_neg hp]
        unfold GS.resize
        rw [if_neg hen]
        dsimp only
        have : (if n ≤ d.req.size then baseResize true d.addr d.req ⟨n, d.req.align⟩ else baseResize false d.addr d.req ⟨n, d.req.align⟩)
            = baseResize gr d.addr d.req ⟨n, d.req.align⟩ := by
          rw [← hgr]; split <;> rfl
        rw [this, ebind_err' (ebind_err' (GS.direct_err he))]
      rcases Nat.lt_or_gt_of_ne hn with hlt | hgt
      · refine ⟨_, key (gr := true) (why := "grow to a smaller layout") ?_ (if_pos (by omega))⟩
        unfold baseResize
        rw [hfind]
        dsimp only
        rw [if_pos ⟨rfl, hlt⟩]
      · refine ⟨_, key (gr := false) (why := "shrink to a larger layout") ?_ (if_neg (by omega))⟩
        unfold baseResize
        rw [hfind]
        dsimp only
        rw [if_neg (by simp), if_pos ⟨rfl, hgt⟩]
  | _ => exact absurd trivial hc

theorem GInv.calm {g0 g cs D K} (h : GInv g0 g cs D K) {op : GOp} (hl : GLegal K op) {r g'} (hs : gstep g op = .ok (r, g')) :
    Calm K op := by
  by_cases hc : Calm K op
  · exact hc
  · obtain ⟨why, he⟩ := h.uncalm hl hc
    rw [he] at hs; cases hs

theorem GInv.step_ok {g0 g cs D K} (h : GInv g0 g cs D K) {op : GOp} (hl : GLegal K op) {r g' K'} (hs : gstep g op = .ok (r, g'))
    (ha : GAfter K op r K') : GRes K op r g g' ∧ ∃ cs' D', GInv g0 g' cs' D' K' := by
  rcases h.step hl (h.calm hl hs) with ⟨e, _, he⟩ | ⟨r1, g1, he, hr, _, hi⟩
  · rw [he] at hs; cases hs
  · rw [he] at hs
    cases hs
    exact ⟨hr, hi _ ha⟩

theorem GRun.inv {g0 g1 : GS} {K0 K : GBook} {tr : List (GOp × GResp)} {g : GS} {cs0 D0}
    (h0 : GInv g0 g1 cs0 D0 K0) (h : GRun g1 K0 tr g K) : ∃ cs D, GInv g0 g cs D K := by
  induction h with
  | nil => exact ⟨cs0, D0, h0⟩
  | snoc _ hl hs ha ih =>
    obtain ⟨cs, D, hi⟩ := ih
    exact (hi.step_ok hl hs ha).2

theorem GReach.inv {g0 g K} (h : GReach g0 g K) : ∃ cs D, GInv g0 g cs D K := by
  obtain ⟨h0, tr, hr⟩ := h
  exact hr.inv h0.inv

end Blink
