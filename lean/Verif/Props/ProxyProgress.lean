import Verif.Proofs.ProxyProg
import Verif.Props.ProxyRoom
import Verif.Props.SyncDRF
import Verif.Spec.ProxyExec
/-
  C72: calls through proxies get on. A call of a proxy always starts; while calls are being executed somebody can move; whoever
  holds the lock can move; an identity that runs undisturbed finishes its call, and until it does nobody inside touches the
  blocks that proxies handed out.
-/
namespace Blink

theorem PInv.go_none {p0 ps K KS cs pend} (h : PInv p0 ps K KS cs pend) {t : Nat} {ch : Choice}
    (he : pstep ps (.shared (.go t ch)) = .ok none) : sstep ps.s (.go t ch) = .ok none := by
  cases hs : sstep ps.s (.go t ch) with
  | error e => simp only [pstep] at he; rw [ebind_err hs] at he; cases he
  | ok x =>
    rcases x with _ | ⟨_ | r, s'⟩
    · rfl
    · rw [(h.goNone hs).1] at he; cases he
    · by_cases hb : ∃ ob, K.pbusy t = some (.resetUnchecked, ob)
      · obtain ⟨ob, hb⟩ := hb
        obtain ⟨_, _, h1, _⟩ := h.resumeChain hs hb
        rw [h1] at he; cases he
      · rcases h.ends hs (fun ob hn => hb ⟨ob, hn⟩) with ⟨_, _, _, h1⟩ | ⟨_, _, h1⟩
        · rw [h1] at he; cases he
        · rw [h1] at he; cases he

/-- C72: an identity that executes `allocate` or `resize` of a proxy, while nobody else holds the lock of the shared allocator,
finishes within ten steps if it is scheduled alone (or meets a broken answer of the underlying allocator, or the debug assertion
described at `PS.EmptyChunk`): the steps do
not grow with the number of blocks, chunks or proxies, nor with the size of the block that is moved. -/
theorem C72_finishes_alone {p0 ps : PS} {K : PBook} (h : PReach p0 ps K) {t : Nat} {c : PCall} {ob : Option Owned}
    (hb : K.pbusy t = some (c, ob)) (hc : c ≠ .resetUnchecked) (hf : ps.s.Free t) :
    (∃ r ps', psolo 10 ps t = .ok (some (r, ps'))) ∨
      ∃ e, psolo 10 ps t = .error e ∧
        ((∃ w, w.oracle = p0.s.w.oracle ∧ BadAnswer w e) ∨ ps.EmptyChunk (.shared (.go t fresh)) e) := by
  obtain ⟨KS, cs, pend, hi⟩ := h.inv
  obtain ⟨c', oc, h1, h2, _⟩ := hi.inside (t := t) (.inr (by rw [hb]; simp))
  have := hi.finishes hf h1 (by intro ob' hn; rw [hb] at hn; injection hn with hn; injection hn with hn _; exact hc hn)
  rw [h2 (by rw [hb]; simp)] at this
  rcases this with this | ⟨e, h3, h4 | ⟨_, h4⟩⟩
  · exact .inl this
  · exact .inr ⟨e, h3, .inl h4⟩
  · exact .inr ⟨e, h3, .inr h4⟩

/-- C72: the same for `reset_unchecked`, within a number of steps that depends on how many chunks it has to give back. -/
theorem C72_reset_finishes_alone {p0 ps : PS} {K : PBook} (h : PReach p0 ps K) {t : Nat} {ob : Option Owned}
    (hb : K.pbusy t = some (.resetUnchecked, ob)) (hf : ps.s.Free t) :
    ∃ n, (∃ r ps', psolo n ps t = .ok (some (r, ps'))) ∨
      ∃ e w, psolo n ps t = .error e ∧ w.oracle = p0.s.w.oracle ∧ BadAnswer w e := by
  obtain ⟨KS, cs, pend, hi⟩ := h.inv
  exact ⟨_, PInv.chainFinishes hb _ hi hf (Nat.lt_succ_self _)⟩

/-- C72: the same for calls made directly to the shared allocator while proxies exist. -/
theorem C72_direct_finishes_alone {p0 ps : PS} {K : PBook} (h : PReach p0 ps K) {t : Nat} {c : Call} {ob : Option Owned}
    (hb : K.direct.busy t = some (c, ob)) (hf : ps.s.Free t) :
    (∃ r ps', psolo (c.bytes + 10) ps t = .ok (some (r, ps'))) ∨
      ∃ e w, psolo (c.bytes + 10) ps t = .error e ∧ w.oracle = p0.s.w.oracle ∧ BadAnswer w e := by
  obtain ⟨KS, cs, pend, hi⟩ := h.inv
  obtain ⟨c', oc, h1, h2, h3⟩ := hi.inside (t := t) (.inl (by rw [hb]; simp))
  have hp : K.pbusy t = none := by
    have hx := hi.px t
    rw [hb] at hx
    generalize K.pbusy t = pb at hx ⊢
    generalize KS.busy t = kb at hx
    generalize K.live t = lv at hx
    generalize K.led t = ld at hx
    generalize pend t = pd at hx
    generalize cs t = csi at hx
    generalize ps.px t = px at hx
    cases hx <;> rfl
  have h4 := (h3 hp).symm.trans hb
  injection h4 with h4; injection h4 with h4 _
  subst h4
  rcases hi.finishes hf h1 (by rw [hp]; simp) with this | ⟨e, h5, ⟨w, h6⟩ | ⟨h6, _⟩⟩
  · exact .inl this
  · exact .inr ⟨e, w, h5, h6⟩
  · exact absurd hp h6

/-- C72: whoever holds the lock of the shared allocator, on behalf of a proxy or not, can make its next step. -/
theorem C72_holder_enabled {p0 ps : PS} {K : PBook} (h : PReach p0 ps K) {t : Nat} (ht : t ∈ ps.s.readers ∨ ps.s.writer = some t)
    (ch : Choice) : pstep ps (.shared (.go t ch)) ≠ .ok none := by
  obtain ⟨KS, cs, pend, hi⟩ := h.inv
  exact fun hn => C24_holder_enabled hi.reach ht ch (hi.go_none hn)

/-- C72: whoever holds the lock is executing a call. -/
theorem C72_holder_inside {p0 ps : PS} {K : PBook} (h : PReach p0 ps K) {t : Nat} (ht : t ∈ ps.s.readers ∨ ps.s.writer = some t) :
    K.Inside t := by
  obtain ⟨KS, cs, pend, hi⟩ := h.inv
  rw [hi.outside]
  intro hn
  obtain ⟨cs0, B0, hI⟩ := hi.reach.inv
  have := (hI.busy_none hn).1
  rcases ht with hu | hu
  · have h2 := (hI.lock.rd t).mp hu; rw [this] at h2; cases h2
  · have h2 := (hI.lock.wr t).mp hu; rw [this] at h2; cases h2

/-- C72: if nobody holds the lock, everybody executing a call, of a proxy or directly, can make its next step. -/
theorem C72_no_deadlock {p0 ps : PS} {K : PBook} (h : PReach p0 ps K) (hr : ps.s.readers = []) (hw : ps.s.writer = none) {t : Nat}
    (hb : K.Inside t) (ch : Choice) : pstep ps (.shared (.go t ch)) ≠ .ok none := by
  obtain ⟨KS, cs, pend, hi⟩ := h.inv
  exact fun hn => C24_no_deadlock hi.reach hr hw (hi.outside.mp hb) ch (hi.go_none hn)

/-- C72: in particular somebody can move whenever a call is being executed. -/
theorem C72_somebody_moves {p0 ps : PS} {K : PBook} (h : PReach p0 ps K) {t : Nat} (hb : K.Inside t) (ch : Choice) :
    ∃ u, K.Inside u ∧ pstep ps (.shared (.go u ch)) ≠ .ok none := by
  obtain ⟨KS, cs, pend, hi⟩ := h.inv
  obtain ⟨u, h1, h2⟩ := C24_somebody_moves hi.reach (hi.outside.mp hb) ch
  exact ⟨u, hi.outside.mpr h1, fun hn => h2 (hi.go_none hn)⟩

theorem ask_some {ps : PS} {i a w c pc} (h : ps.s.pcs i = .idle) : PS.ask ps i a w c pc ≠ .ok none := by
  unfold PS.ask
  rw [if_pos h]
  intro hn; cases hn

theorem freeNext_some {ps : PS} {i a c w} (h : ps.s.pcs i = .idle) : PS.freeNext ps i a c w ≠ .ok none := by
  unfold PS.freeNext
  intro hn
  split at hn
  · cases hn
  · obtain ⟨x, _, hn⟩ := ebind_inv hn
    obtain ⟨y, _, hn⟩ := ebind_inv hn
    obtain ⟨z, _, hn⟩ := ebind_inv hn
    exact ask_some h hn

/-- C72: a call of a proxy never has to wait before it starts. -/
theorem C72_starts {p0 ps : PS} {K : PBook} (h : PReach p0 ps K) {i : Nat} (hr : K.Ready i) {a : PAct}
    (ha : (∃ l, a = .allocate i l) ∨ (∃ p old new, a = .resize i p old new) ∨ (∃ p n, a = .deallocate i p n) ∨ a = .reset i ∨
      a = .resetUnchecked i ∨ a = .drop i) : pstep ps a ≠ .ok none := by
  obtain ⟨KS, cs, pend, m, hi, hp, hv, hL, hm, hidle⟩ := h.ready hr
  intro hn
  rcases ha with ⟨l, rfl⟩ | ⟨p, old, new, rfl⟩ | ⟨p, n, rfl⟩ | rfl | rfl | rfl
  · simp only [pstep, hp] at hn
    obtain ⟨⟨x, w⟩, _, hn⟩ := ebind_inv hn
    cases x with
    | some b => cases hn
    | none =>
      obtain ⟨⟨q, w'⟩, _, hn⟩ := ebind_inv hn
      cases q with
      | none => cases hn
      | some s => exact ask_some hidle hn
  · simp only [pstep, hp] at hn
    obtain ⟨⟨x, w⟩, _, hn⟩ := ebind_inv hn
    cases x with
    | some b => cases hn
    | none =>
      obtain ⟨⟨q, w'⟩, _, hn⟩ := ebind_inv hn
      cases q with
      | none => cases hn
      | some s => exact ask_some hidle hn
  · simp only [pstep, hp] at hn
    obtain ⟨x, _, hn⟩ := ebind_inv hn
    cases hn
  · simp only [pstep, hp] at hn
    obtain ⟨x, _, hn⟩ := ebind_inv hn
    obtain ⟨y, _, hn⟩ := ebind_inv hn
    cases hn
  · simp only [pstep, hp] at hn
    split at hn
    · cases hn
    · obtain ⟨x, _, hn⟩ := ebind_inv hn
      exact freeNext_some hidle hn
  · simp only [pstep, hp] at hn
    obtain ⟨x, _, hn⟩ := ebind_inv hn
    obtain ⟨y, _, hn⟩ := ebind_inv hn
    obtain ⟨z, _, hn⟩ := ebind_inv hn
    cases hn

/-- C72: nobody inside the shared allocator accesses a byte of a block that somebody holds, whether it was obtained through a
proxy or directly. -/
theorem C72_blocks_untouched {p0 ps : PS} {K : PBook} (h : PReach p0 ps K) {b : Owned}
    (hb : b ∈ K.direct.owned ∨ ∃ i, b ∈ K.blocks i) {x : Nat} (hx : b.Has x) (t : Nat) (ch : Choice) :
    ¬ Touches ps.s (.go t ch) x := by
  obtain ⟨KS, cs, pend, hi⟩ := h.inv
  rcases hb with hb | ⟨i, hb⟩
  · exact C70_owned hi.reach (hi.tiles.memD hb) hx t ch
  · obtain ⟨c, hc, h1⟩ := ((hi.px i).led.byte hb hx).inCs fun c hc => (hi.px i).ok c (List.mem_append_left _ hc)
    obtain ⟨o, ho, h2⟩ := hi.inCs (i := i) ⟨c, List.mem_append_left _ hc, h1⟩
    exact C70_owned hi.reach (hi.tiles.mem (i := i) ho) h2 t ch

/-- C72: no data race inside the shared allocator, with proxies among its users: two threads about to access the same byte, one
of them writing, do so at the cursor of the current chunk, which is atomic. -/
theorem C72_no_race {p0 ps : PS} {K : PBook} (h : PReach p0 ps K) {t u : Nat} (htu : t ≠ u) {ch ch' : Choice} {x : Nat}
    (hw : Writes ps.s (.go u ch) x) (hx : Touches ps.s (.go t ch') x) : ps.s.root ≠ 0 ∧ ps.s.root ≤ x ∧ x < ps.s.root + 8 := by
  obtain ⟨KS, cs, pend, hi⟩ := h.inv
  exact C70_no_race hi.reach htu hw hx

/-! ### The hypotheses are met -/

/-- Proxy 0 grows three chunks; then it resets while proxy 1 waits for its first chunk inside the shared allocator and somebody
else executes a direct call. -/
def pdemoActs3 : List PAct :=
  [.spawn 0 0, .spawn 1 0, .allocate 0 ⟨100, 8⟩] ++ pgoes 0 5 ++ [.allocate 0 ⟨600, 8⟩] ++ pgoes 0 4 ++
    [.allocate 0 ⟨2000, 8⟩] ++ pgoes 0 4 ++ [.resetUnchecked 0, .allocate 1 ⟨10, 2⟩, .shared (.call 2 (.allocate ⟨8, 8⟩))] ++ pgoes 1 1

/-- The hypotheses of the theorems of C72 about finishing are met: identities 0 (resetting), 1 (allocating through a proxy) and 2
(allocating directly) are inside and only 1 holds the lock. -/
example : ∃ p0 ps K, PReach p0 ps K ∧ K.pbusy 0 = some (.resetUnchecked, none) ∧ K.pbusy 1 = some (.allocate ⟨10, 2⟩, none) ∧
    K.direct.busy 2 = some (.allocate ⟨8, 8⟩, none) ∧ 1 ∈ ps.s.readers ∧ ps.s.Free 1 := by
  obtain ⟨rs, ps, K, h0, hr, _, hf⟩ := of_pdemoAt (sizes := [8192, 8192]) (m := 1024) (as := pdemoActs3) (f := fun _ ps K =>
    decide (K.pbusy 0 = some (.resetUnchecked, none)) && decide (K.pbusy 1 = some (.allocate ⟨10, 2⟩, none)) &&
    decide (K.direct.busy 2 = some (.allocate ⟨8, 8⟩, none)) && decide (ps.s.readers = [1]) && decide (ps.s.writer = none))
    (by decide +kernel)
  simp only [Bool.and_eq_true, decide_eq_true_eq] at hf
  obtain ⟨⟨⟨⟨h1, h2⟩, h3⟩, h4⟩, h5⟩ := hf
  exact ⟨_, ps, K, ⟨h0, _, hr⟩, h1, h2, h3, by rw [h4]; simp, by rw [SS.Free, h4, h5]; simp⟩

/-- `reset_unchecked` alone, with two chunks to give back, does finish: the hypotheses of `C72_reset_finishes_alone` and
`C72_no_deadlock` are met, and the steps needed to give one chunk back are not enough. -/
example : ∃ p0 ps K ps', PReach p0 ps K ∧ K.pbusy 0 = some (.resetUnchecked, none) ∧ ps.s.Free 0 ∧ ps.s.readers = [] ∧ ps.s.writer = none ∧
    psolo 4 ps 0 = .ok none ∧ psolo 20 ps 0 = .ok (some (.unit, ps')) := by
  obtain ⟨rs, ps, K, h0, hr, _, hf⟩ := of_pdemoAt (sizes := [8192, 8192]) (m := 1024)
    (as := [.spawn 0 0, .allocate 0 ⟨100, 8⟩] ++ pgoes 0 5 ++ [.allocate 0 ⟨600, 8⟩] ++ pgoes 0 4 ++
      [.allocate 0 ⟨2000, 8⟩] ++ pgoes 0 4 ++ [.resetUnchecked 0]) (f := fun _ ps K =>
    decide (K.pbusy 0 = some (.resetUnchecked, none)) && decide (ps.s.readers = []) && decide (ps.s.writer = none) &&
    (match psolo 4 ps 0 with | .ok none => true | _ => false) &&
    (match psolo 20 ps 0 with | .ok (some (.unit, _)) => true | _ => false)) (by decide +kernel)
  simp only [Bool.and_eq_true, decide_eq_true_eq] at hf
  obtain ⟨⟨⟨⟨h1, h2⟩, h3⟩, h4⟩, h5⟩ := hf
  split at h4
  · rename_i hs4
    split at h5
    · rename_i ps' hs5
      exact ⟨_, ps, K, ps', ⟨h0, _, hr⟩, h1, by rw [SS.Free, h2, h3]; simp, h2, h3, hs4, hs5⟩
    · cases h5
  · cases h4

/-- The hypotheses of `C72_starts` and `C72_blocks_untouched` are met while others are inside. -/
example : ∃ p0 ps K b, PReach p0 ps K ∧ K.Ready 0 ∧ b ∈ K.blocks 0 ∧ b.Has 65700 ∧ K.Inside 1 := by
  obtain ⟨rs, ps, K, h0, hr, _, hf⟩ := of_pdemoAt (sizes := [4096, 8192]) (m := 1024)
    (as := [.spawn 0 0, .spawn 1 0, .allocate 0 ⟨200, 8⟩] ++ pgoes 0 5 ++ [.allocate 1 ⟨300, 8⟩] ++ pgoes 1 2) (f := fun _ ps K =>
    K.readyB 0 && decide (K.blocks 0 = [⟨65600, 200, 200, 8⟩]) && decide (K.pbusy 1 = some (.allocate ⟨300, 8⟩, none))) (by decide +kernel)
  simp only [Bool.and_eq_true, decide_eq_true_eq] at hf
  obtain ⟨⟨h1, h2⟩, h3⟩ := hf
  exact ⟨_, ps, K, ⟨65600, 200, 200, 8⟩, ⟨h0, _, hr⟩, PBook.readyB_sound h1, by rw [h2]; simp, ⟨by decide, by decide⟩, .inr (by rw [h3]; simp)⟩

end Blink
