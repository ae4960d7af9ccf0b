import Verif.Props.Room
import Verif.Proofs.Sim
/-
  C06 (later behaviour), C21, C52, C53, C54.
-/
namespace Blink

/-! ### C21 -/

/-- C21: `align_up(v, a)` fails exactly if `v` plus the mask exceeds `usize`. -/
theorem C21_align_up_none {v a k : Nat} (ha : a = 2 ^ k) (hk : k < 64) : alignUp v a = none ↔ USIZE ≤ v + (a - 1) := by
  subst ha
  constructor
  · intro h
    apply Decidable.byContradiction
    intro h'
    rw [alignUp_eq hk (by omega)] at h
    cases h
  · intro h
    exact alignUp_none (by omega)

/-- C21: otherwise it is the least multiple of `a` that is at least `v`. -/
theorem C21_align_up {v a k r : Nat} (ha : a = 2 ^ k) (hk : k < 64) (h : alignUp v a = some r) :
    a ∣ r ∧ v ≤ r ∧ r < USIZE ∧ ∀ m, a ∣ m → v ≤ m → r ≤ m := by
  subst ha
  have hpos : 0 < 2 ^ k := Nat.two_pow_pos k
  have hlt : v + (2 ^ k - 1) < USIZE := by
    apply Decidable.byContradiction
    intro h'
    rw [alignUp_none h'] at h
    cases h
  rw [alignUp_eq hk hlt] at h
  injection h with h
  generalize 2 ^ k = a at *
  have h1 := Nat.mod_lt (v + (a - 1)) hpos
  have h2 : r = a * ((v + (a - 1)) / a) := by
    have := Nat.div_add_mod (v + (a - 1)) a
    omega
  refine ⟨⟨_, h2⟩, by omega, by omega, ?_⟩
  rintro m ⟨q, rfl⟩ hm
  rw [h2]
  apply Nat.mul_le_mul_left
  apply Nat.le_of_lt_succ
  rw [Nat.div_lt_iff_lt_mul hpos, Nat.succ_mul, Nat.mul_comm]
  omega

/-- C21: `align_down(v, a)` is the greatest multiple of `a` that is at most `v`. -/
theorem C21_align_down {v a k : Nat} (ha : a = 2 ^ k) (hk : k < 64) (hv : v < USIZE) :
    a ∣ alignDown v a ∧ alignDown v a ≤ v ∧ ∀ m, a ∣ m → m ≤ v → m ≤ alignDown v a := by
  subst ha
  have hpos : 0 < 2 ^ k := Nat.two_pow_pos k
  rw [alignDown_eq hv hk]
  generalize 2 ^ k = a at *
  have h2 : v - v % a = a * (v / a) := by
    have := Nat.div_add_mod v a
    omega
  refine ⟨⟨_, h2⟩, by omega, ?_⟩
  rintro m ⟨q, rfl⟩ hm
  rw [h2]
  apply Nat.mul_le_mul_left
  rw [Nat.le_div_iff_mul_le hpos, Nat.mul_comm]
  exact hm

/-- C21: `is_aligned_to` decides divisibility. -/
theorem C21_is_aligned {v a k : Nat} (ha : a = 2 ^ k) (hk : k < 64) (hv : v < USIZE) : isAlignedTo v a = true ↔ a ∣ v := by
  subst ha
  rw [isAlignedTo_eq hv hk, decide_eq_true_eq, Nat.dvd_iff_mod_eq_zero]

/-- C21: `layout_sum` does not overflow on valid layouts. -/
theorem C21_layout_sum {l : Layout} (h : l.Valid) (w : World) : layoutSum l w = .ok (l.size + (l.align - 1), w) := by
  obtain ⟨k, _, hk, hpos, hs⟩ := h.facts
  unfold layoutSum
  rw [bind_ok (subU_ok (by omega))]
  exact addU_ok (by omega)

/-- Non-vacuity: both outcomes of `align_up` occur, and none of the results is `v` itself. -/
example : alignUp 4099 4096 = some 8192 ∧ alignUp (USIZE - 5) 16 = none ∧ alignDown 4099 4096 = 4096 ∧
    isAlignedTo 4099 4096 = false := by decide

/-! ### C06, later behaviour -/

/-- The state `s` in a history in which the next `k` requests to the underlying allocator are not made: its later answers
come earlier. -/
def St.skip (s : St) (k : Nat) : St := { s with w := { s.w with oracle := fun n => s.w.oracle (n + k) } }

theorem run_sim {lg lg' : List BaseEvent} {s s' : St} (ha : s'.a = s.a) (h : Sim lg lg' s.w s'.w) {L tr t' L'}
    (hr : Run s' L tr t' L') : ∃ t, Run s L tr t L' ∧ t'.a = t.a ∧ Sim lg lg' t.w t'.w := by
  induction hr with
  | nil => exact ⟨s, .nil, ha, h⟩
  | snoc _ hl hs haft ih =>
    obtain ⟨t, hrun, hta, hsim⟩ := ih
    rcases step_sim hta hsim _ with ⟨e, _, he⟩ | ⟨r, t1, t1', h1, h1', h2, h3⟩
    · rw [he] at hs; cases hs
    · rw [h1'] at hs
      injection hs with hs
      injection hs with e1 e2
      subst e1; subst e2
      exact ⟨t1, hrun.snoc hl h1 haft, h2, h3⟩

/-- C06: after a call that answered `Err` (having made `k ≤ 1` requests), every later history goes exactly as it would have
gone without that call: the same calls get the same responses, end with the same allocator, memory and held blocks, and make
the same requests to the underlying allocator (`new`); and whatever call comes next has the same outcome. -/
theorem C06_later_behaviour {s0 s s' : St} {L : List Owned} (h : Reach s0 s L) {op : Op} (hl : Legal L op)
    (hs : step s op = .ok (.err, s')) :
    ∃ k ≤ 1, s'.w.calls = s.w.calls + k ∧ ∀ tr t' L', Run s' L tr t' L' →
      ∃ t new, Run (s.skip k) L tr t L' ∧ t.a = t'.a ∧ t.w.mem = t'.w.mem ∧ t.w.held = t'.w.held ∧
        t.w.log = new ++ s.w.log ∧ t'.w.log = new ++ s'.w.log ∧
        ∀ op', (step t op').map (·.1) = (step t' op').map (·.1) := by
  have key : ∃ k ≤ 1, s'.w.calls = s.w.calls + k ∧ s'.a = (s.skip k).a ∧ Sim s.w.log s'.w.log (s.skip k).w s'.w := by
    rcases C06_failure_changes_nothing h hl hs with rfl | ⟨l, _, rfl⟩
    · exact ⟨0, by omega, rfl, rfl, rfl, rfl, rfl, rfl, fun _ => rfl, [], rfl, rfl⟩
    · exact ⟨1, by omega, rfl, rfl, rfl, rfl, rfl, rfl, fun n => by
        show s.w.oracle (s.w.calls + 1 + n) = s.w.oracle (s.w.calls + n + 1)
        congr 1; omega, [], rfl, rfl⟩
  obtain ⟨k, hk, hc, ha, hsim⟩ := key
  refine ⟨k, hk, hc, fun tr t' L' hr => ?_⟩
  obtain ⟨t, hrun, hta, hs⟩ := run_sim ha hsim hr
  obtain ⟨new, n1, n2⟩ := hs.log
  refine ⟨t, new, hrun, hta.symm, hs.mem.symm, hs.held.symm, n1, n2, fun op' => ?_⟩
  rcases step_sim hta hs op' with ⟨e, h1, h2⟩ | ⟨r, u, u', h1, h2, _⟩
  · rw [h1, h2]
  · rw [h1, h2]; rfl

/-- Non-vacuity: a refused allocation followed by a successful one from a new chunk. -/
example : ∃ s0 s s' t' L L', Reach s0 s L ∧ Legal L (.allocate ⟨900, 8⟩) ∧ step s (.allocate ⟨900, 8⟩) = .ok (.err, s') ∧
    Run s' L [(.allocate ⟨900, 8⟩, .block ⟨196640, 900⟩)] t' L' := by
  obtain ⟨s, L, r, s', h1, h2, h3, _, h4⟩ := of_demoAt (sizes := [512, 0, 2048]) (m := 256) (ops := [.allocate ⟨100, 8⟩])
    (op := .allocate ⟨900, 8⟩) (f := fun _ L r s' => r == .err && (exec1 s' L (.allocate ⟨900, 8⟩)).any
      (fun x => x.1 == .block ⟨196640, 900⟩)) (by decide) (by decide +kernel)
  simp only [Bool.and_eq_true, beq_iff_eq] at h4
  obtain ⟨rfl, h4⟩ := h4
  cases he : exec1 s' L (.allocate ⟨900, 8⟩) with
  | none => rw [he] at h4; cases h4
  | some x =>
    obtain ⟨r, t, L'⟩ := x
    rw [he] at h4
    simp only [Option.any_some, beq_iff_eq] at h4
    subst h4
    obtain ⟨a1, a2, a3⟩ := exec1_sound he
    exact ⟨_, s, s', t, L, L', h1, h2, h3, Run.nil.snoc a1 a2 a3⟩

/-! ### C52 -/

/-- C52: the first 32 bytes of every block held from the underlying allocator (the chunk headers) belong to no caller. -/
theorem C52_metadata_apart {s0 s : St} {L : List Owned} (h : Reach s0 s L) {b : Owned} (hb : b ∈ L) {B : BaseBlk}
    (hB : B ∈ openBlocks s.w.log) {x : Nat} (hx : b.Has x) : ¬ (B.addr ≤ x ∧ x < B.addr + 32) := by
  obtain ⟨cs, hI⟩ := h.inv
  rw [hI.log.1] at hB
  obtain ⟨c, hc, rfl⟩ := List.mem_map.mp hB
  obtain ⟨d, hd, h1, h2⟩ := hI.led.byte hb hx
  have hok := hI.arena.ok d hd
  have := hok.hi
  have hokc := hI.arena.ok c hc
  have := hokc.lo; have := hokc.hi
  simp only [Chunk.blk]
  rcases hI.arena.chunk_dis2 hc hd with rfl | h3
  · omega
  · omega

/-! ### C53 -/

/-- The calls that are not writes by owners. -/
def allocatorCalls (tr : List (Op × Resp)) : List Op :=
  (tr.filter (fun x => match x.1 with | .write _ _ => false | _ => true)).map (·.1)

/-- The same with their responses. -/
def allocatorTrace (tr : List (Op × Resp)) : List (Op × Resp) :=
  tr.filter (fun x => match x.1 with | .write _ _ => false | _ => true)

/-- Worlds that agree but for memory contents. -/
structure SameBase (w w' : World) : Prop where
  held : w'.held = w.held
  calls : w'.calls = w.calls
  log : w'.log = w.log
  top : w'.top = w.top
  oracle : w'.oracle = w.oracle

theorem SameBase.fresh {w w'} (h : SameBase w w') (l : Layout) (s : Slice) : freshOk w' l s = freshOk w l s := by
  unfold freshOk; rw [h.held, h.top]

theorem AllocRes.det {w w' cs m l o w1 cs1 o' w1' cs1'} (h : SameBase w w') (h1 : AllocRes w cs m l o w1 cs1)
    (h2 : AllocRes w' cs m l o' w1' cs1') : o' = o ∧ cs1' = cs1 ∧ SameBase w1 w1' := by
  cases h1 with
  | fast c t a hcs hb =>
    cases h2 with
    | fast c' t' a' hcs' hb' =>
      rw [hcs] at hcs'
      injection hcs' with e1 e2
      subst e1; subst e2
      rw [hb] at hb'
      injection hb' with e; subst e
      exact ⟨rfl, rfl, h.held, h.calls, h.log, h.top, h.oracle⟩
    | slow hb' => rw [hb' c t hcs] at hb; cases hb
  | slow hb hs =>
    cases h2 with
    | fast c' t' a' hcs' hb' => rw [hb c' t' hcs'] at hb'; cases hb'
    | slow hb' hs' =>
      have ho : w'.oracle w'.calls = w.oracle w.calls := by rw [h.oracle, h.calls]
      cases hs with
      | tooBig hq =>
        cases hs' with
        | tooBig => exact ⟨rfl, rfl, h⟩
        | refused R hq' => rw [hq] at hq'; cases hq'
        | ok R sl m' hq' => rw [hq] at hq'; cases hq'
      | refused R hq ho1 =>
        cases hs' with
        | tooBig hq' => rw [hq] at hq'; cases hq'
        | refused R' hq' =>
          rw [hq] at hq'
          injection hq' with e; subst e
          exact ⟨rfl, rfl, h.held, by simp only [h.calls], by simp only [h.log], h.top, h.oracle⟩
        | ok R sl m' hq' ho2 => rw [ho, ho1] at ho2; cases ho2
      | ok R sl m' hq ho1 =>
        cases hs' with
        | tooBig hq' => rw [hq] at hq'; cases hq'
        | refused R' hq' ho2 => rw [ho, ho1] at ho2; cases ho2
        | ok R' sl' m'' hq' ho2 =>
          rw [ho, ho1] at ho2
          injection ho2 with e; subst e
          rw [hq] at hq'
          injection hq' with e; subst e
          exact ⟨rfl, rfl, by simp only [h.held], by simp only [h.calls], by simp only [h.log], h.top, h.oracle⟩

theorem SameBase.setMem {w w'} (h : SameBase w w') (m m' : Nat → Byte) : SameBase { w with mem := m } { w' with mem := m' } :=
  ⟨h.held, h.calls, h.log, h.top, h.oracle⟩

theorem SameBase.freeAll {w w'} (h : SameBase w w') (cs : List Chunk) : SameBase (freeAll w cs) (freeAll w' cs) := by
  induction cs generalizing w w' with
  | nil => exact h
  | cons c cs ih =>
    apply ih
    exact ⟨by simp only [freeBlk, h.held], h.calls, by simp only [freeBlk, h.log], h.top, h.oracle⟩

theorem ResizeRes.det {w w' cs m p old new o w1 cs1 o' w1' cs1'} (h : SameBase w w')
    (h1 : ResizeRes w cs m p old new o w1 cs1) (h2 : ResizeRes w' cs m p old new o' w1' cs1') :
    o' = o ∧ cs1' = cs1 ∧ SameBase w1 w1' := by
  cases h1 with
  | same ha hs =>
    cases h2 with
    | same => exact ⟨rfl, rfl, h⟩
    | grow c t hcs ha' hs' => omega
    | move s w2 cs2 hn => exact absurd ⟨ha, hs⟩ hn
    | fail w2 cs2 hn => exact absurd ⟨ha, hs⟩ hn
  | grow c t hcs ha hs htip hfit =>
    cases h2 with
    | same ha' hs' => omega
    | grow c' t' hcs' =>
      rw [hcs] at hcs'
      injection hcs' with e1 e2
      subst e1; subst e2
      exact ⟨rfl, rfl, h.held, h.calls, h.log, h.top, h.oracle⟩
    | move s w2 cs2 hn hg => exact absurd ⟨ha, htip, hfit⟩ (hg c t hcs)
    | fail w2 cs2 hn hg => exact absurd ⟨ha, htip, hfit⟩ (hg c t hcs)
  | move s w2 cs2 hn hg hr =>
    cases h2 with
    | same ha' hs' => exact absurd ⟨ha', hs'⟩ hn
    | grow c t hcs ha hs htip hfit => exact absurd ⟨ha, htip, hfit⟩ (hg c t hcs)
    | move s' w2' cs2' hn' hg' hr' =>
      obtain ⟨d1, d2, d3⟩ := hr.det h hr'
      exact ⟨d1, d2, d3.setMem _ _⟩
    | fail w2' cs2' hn' hg' hr' => cases (hr.det h hr').1
  | fail w2 cs2 hn hg hr =>
    cases h2 with
    | same ha' hs' => exact absurd ⟨ha', hs'⟩ hn
    | grow c t hcs ha hs htip hfit => exact absurd ⟨ha, htip, hfit⟩ (hg c t hcs)
    | move s' w2' cs2' hn' hg' hr' => cases (hr.det h hr').1
    | fail w2' cs2' hn' hg' hr' => exact hr.det h hr'

theorem OpRes.det {w w' cs m op r w1 cs1 r' w1' cs1'} (h : SameBase w w') (h1 : OpRes w cs m op r w1 cs1)
    (h2 : OpRes w' cs m op r' w1' cs1') : r' = r ∧ cs1' = cs1 ∧ SameBase w1 w1' := by
  cases op with
  | allocate l =>
    obtain ⟨o, rfl, h1⟩ := h1
    obtain ⟨o', rfl, h2⟩ := h2
    obtain ⟨d1, d2, d3⟩ := h1.det h h2
    exact ⟨by rw [d1], d2, d3⟩
  | allocateZeroed l =>
    obtain ⟨o, v, rfl, h1, hv⟩ := h1
    obtain ⟨o', v', rfl, h2, hv'⟩ := h2
    obtain ⟨rfl, d2, d3⟩ := h1.det h h2
    refine ⟨rfl, d2, ?_⟩
    cases o' with
    | none => simp only at hv hv'; rw [hv, hv']; exact d3
    | some s => simp only at hv hv'; rw [hv, hv']; exact d3.setMem _ _
  | resize p old new =>
    obtain ⟨o, rfl, h1⟩ := h1
    obtain ⟨o', rfl, h2⟩ := h2
    obtain ⟨d1, d2, d3⟩ := h1.det h h2
    exact ⟨by rw [d1], d2, d3⟩
  | growZeroed p old new =>
    obtain ⟨o, v, rfl, h1, hv⟩ := h1
    obtain ⟨o', v', rfl, h2, hv'⟩ := h2
    obtain ⟨rfl, d2, d3⟩ := h1.det h h2
    refine ⟨rfl, d2, ?_⟩
    cases o' with
    | none => simp only at hv hv'; rw [hv, hv']; exact d3
    | some s => simp only at hv hv'; rw [hv, hv']; exact d3.setMem _ _
  | deallocate => obtain ⟨rfl, rfl, rfl⟩ := h1; obtain ⟨rfl, rfl, rfl⟩ := h2; exact ⟨rfl, rfl, h⟩
  | reset =>
    obtain ⟨rfl, rfl, rfl⟩ := h1; obtain ⟨rfl, rfl, rfl⟩ := h2
    refine ⟨rfl, rfl, ?_⟩
    cases cs with
    | nil => exact h
    | cons c t => exact SameBase.freeAll (h.setMem _ _) t
  | resetFinal => obtain ⟨rfl, rfl, rfl⟩ := h1; obtain ⟨rfl, rfl, rfl⟩ := h2; exact ⟨rfl, rfl, h.freeAll cs⟩
  | write => obtain ⟨rfl, rfl, rfl⟩ := h1; obtain ⟨rfl, rfl, rfl⟩ := h2; exact ⟨rfl, rfl, h.setMem _ _⟩

/-- A call that needs a chunk and gets a bad answer cannot succeed. -/
theorem NeedsChunk.not_ok {w w' cs m e op r w1 cs1} (h : SameBase w w') (hb : BadAnswer w e) (hn : NeedsChunk cs m e op)
    (hr : OpRes w' cs m op r w1 cs1) : False := by
  obtain ⟨l, sl, rfl, ho, hf⟩ := hb
  have key : ∀ {l' o w2 cs2}, NoFit cs l' → ReqIs cs m l' (.env l sl) → AllocRes w' cs m l' o w2 cs2 → False := by
    intro l' o w2 cs2 hnf ⟨R, sl', hR, he⟩ hr
    injection he with e1 e2
    subst e1; subst e2
    rw [← h.fresh] at hf
    rw [← h.oracle, ← h.calls] at ho
    cases hr with
    | fast c t a hcs hb => rw [hnf c t hcs] at hb; cases hb
    | slow _ hs =>
      cases hs with
      | tooBig hq => rw [hR] at hq; cases hq
      | refused R' hq ho' => rw [ho] at ho'; cases ho'
      | ok R' sl' m' hq ho' hf' =>
        rw [ho] at ho'
        injection ho' with e; subst e
        rw [hR] at hq
        injection hq with e; subst e
        rw [hf] at hf'
        cases hf'
  cases op with
  | allocate => obtain ⟨o, _, hr⟩ := hr; exact key hn.1 hn.2 hr
  | allocateZeroed => obtain ⟨o, v, _, hr, _⟩ := hr; exact key hn.1 hn.2 hr
  | resize p old new =>
    obtain ⟨o, _, hr⟩ := hr
    obtain ⟨⟨n1, n2, n3⟩, hn⟩ := hn
    cases hr with
    | same ha hs => exact n1 ⟨ha, hs⟩
    | grow c t hcs ha hs htip hfit => exact n2 c t hcs ⟨ha, htip, hfit⟩
    | move s w1 cs1 _ _ hr => exact key n3 hn hr
    | fail w1 cs1 _ _ hr => exact key n3 hn hr
  | growZeroed => obtain ⟨o, v, _, hr, _⟩ := hr; exact key hn.1 hn.2 hr
  | deallocate => exact hn
  | reset => exact hn
  | resetFinal => exact hn
  | write => exact hn

/-- Two bad answers to the same request are the same. -/
theorem NeedsChunk.det {w w' cs m e e' op} (h : SameBase w w') (hb : BadAnswer w e) (hn : NeedsChunk cs m e op)
    (hb' : BadAnswer w' e') (hn' : NeedsChunk cs m e' op) : e' = e := by
  obtain ⟨l, sl, rfl, ho, hf⟩ := hb
  obtain ⟨l', sl', rfl, ho', hf'⟩ := hb'
  rw [h.oracle, h.calls, ho] at ho'
  injection ho' with e; subst e
  have key : ∀ {l2}, ReqIs cs m l2 (.env l sl) → ReqIs cs m l2 (.env l' sl) → Fault.env l' sl = .env l sl := by
    intro l2 ⟨R, s1, hR, he⟩ ⟨R', s1', hR', he'⟩
    rw [hR] at hR'
    injection hR' with e; subst e
    injection he with e1 e2
    injection he' with e1' e2'
    rw [e1, e1']
  cases op with
  | allocate => exact key hn.2 hn'.2
  | allocateZeroed => exact key hn.2 hn'.2
  | resize => exact key hn.2 hn'.2
  | growZeroed => exact key hn.2 hn'.2
  | deallocate => exact hn.elim
  | reset => exact hn.elim
  | resetFinal => exact hn.elim
  | write => exact hn.elim

/-- States with the same chunks in worlds that agree but for memory answer the same. -/
theorem Inv.same_answer {s0 s s' cs L L'} (h : Inv s0 s cs L) (h' : Inv s0 s' cs L') (hb : SameBase s.w s'.w) {op : Op}
    (hl : Legal L op) (hl' : Legal L' op) : (Blink.step s' op).map (·.1) = (Blink.step s op).map (·.1) := by
  have hm : s'.a.minChunk = s.a.minChunk := h'.min.trans h.min.symm
  have hb' : SameBase s'.w s.w := ⟨hb.held.symm, hb.calls.symm, hb.log.symm, hb.top.symm, hb.oracle.symm⟩
  rcases h.step' hl with ⟨e, he, hs⟩ | ⟨r, t, cs1, hs, hr, _⟩
  · rcases h'.step' hl' with ⟨e', he', hs'⟩ | ⟨r', t', cs1', hs', hr', _⟩
    · rw [hs, hs', NeedsChunk.det hb he.1 he.2 he'.1 (hm ▸ he'.2)]
    · exact (NeedsChunk.not_ok hb he.1 he.2 (hm ▸ hr')).elim
  · rcases h'.step' hl' with ⟨e', he', hs'⟩ | ⟨r', t', cs1', hs', hr', _⟩
    · exact (NeedsChunk.not_ok hb' he'.1 (hm ▸ he'.2) hr).elim
    · have hd := (OpRes.det hb hr (hm ▸ hr')).1
      rw [hs, hs', hd]; rfl

/-- C52: an owner storing any byte into an owned block leaves the allocator as it is, and the next call answers (or faults)
exactly as it would have done otherwise. -/
theorem C52_write_harmless {s0 s s' : St} {L : List Owned} (h : Reach s0 s L) {x : Nat} {v : Byte} (hw : Legal L (.write x v))
    {r : Resp} (hs : step s (.write x v) = .ok (r, s')) :
    s'.a = s.a ∧ s'.room = s.room ∧ Quiet s s' ∧ ∀ op, Legal L op → (step s' op).map (·.1) = (step s op).map (·.1) := by
  obtain ⟨cs, hI⟩ := h.inv
  have hs1 := hs
  simp only [step, pure, Except.pure, Except.ok.injEq, Prod.mk.injEq] at hs
  obtain ⟨rfl, rfl⟩ := hs
  obtain ⟨cs', ⟨_, hw', rfl⟩, hI'⟩ := hI.step_ok hw hs1 .write
  have hsb : SameBase s.w { s.w with mem := setBytes s.w.mem x 1 (fun _ => v) } := ⟨rfl, rfl, rfl, rfl, rfl⟩
  refine ⟨rfl, ?_, ⟨rfl, rfl, rfl⟩, fun op hl => hI.same_answer hI' hsb hl hl⟩
  rw [hI'.room, hI.room]

/-- Non-vacuity: a word that looks like a header is written into the middle of a live block, next to the next block. -/
example : ∃ s0 s L s', Reach s0 s L ∧ Legal L (.write 65640 (.word 0 0)) ∧ step s (.write 65640 (.word 0 0)) = .ok (.unit, s') ∧
    (∃ b ∈ L, b.Has 65640) ∧ ∃ B, B ∈ openBlocks s.w.log := by
  obtain ⟨s, L, r, s', h1, h2, h3, _, h4⟩ := of_demoAt (sizes := [512, 2048]) (m := 256)
    (ops := [.allocate ⟨100, 8⟩, .allocate ⟨900, 8⟩])
    (op := .write 65640 (.word 0 0)) (f := fun s L r _ => r == .unit && L.any (fun b => decide (b.addr ≤ 65640) &&
      decide (65640 < b.addr + b.len)) && (openBlocks s.w.log).length == 2) (by decide) (by decide +kernel)
  simp only [Bool.and_eq_true, beq_iff_eq, List.any_eq_true, decide_eq_true_eq] at h4
  obtain ⟨⟨rfl, b, hb, hx⟩, hB⟩ := h4
  refine ⟨_, s, L, s', h1, h2, h3, ⟨b, hb, hx⟩, ?_⟩
  cases he : openBlocks s.w.log with
  | nil => rw [he] at hB; cases hB
  | cons B t => exact ⟨B, List.mem_cons_self⟩

/-! ### C53, histories -/

theorem allocatorTrace_snoc (tr : List (Op × Resp)) (op : Op) (r : Resp) : allocatorTrace (tr ++ [(op, r)]) =
    allocatorTrace tr ++ match op with | .write _ _ => [] | _ => [(op, r)] := by
  unfold allocatorTrace
  rw [List.filter_append]
  cases op <;> rfl

theorem allocatorCalls_eq (tr : List (Op × Resp)) : allocatorCalls tr = (allocatorTrace tr).map (·.1) := rfl

theorem content_indep {s0 : St} (h0 : Start s0) (n : Nat) : ∀ {tr tr' s s' L L'}, tr.length + tr'.length ≤ n → Run s0 [] tr s L →
    Run s0 [] tr' s' L' → allocatorCalls tr' = allocatorCalls tr →
    ∃ cs, Inv s0 s cs L ∧ Inv s0 s' cs L' ∧ SameBase s.w s'.w ∧ allocatorTrace tr' = allocatorTrace tr := by
  induction n with
  | zero =>
    intro tr tr' s s' L L' hn hr hr' _
    cases hr with
    | nil =>
      cases hr' with
      | nil => exact ⟨[], h0.inv, h0.inv, ⟨rfl, rfl, rfl, rfl, rfl⟩, rfl⟩
      | snoc => simp only [List.length_append, List.length_cons, List.length_nil] at hn; omega
    | snoc => simp only [List.length_append, List.length_cons, List.length_nil] at hn; omega
  | succ n ih =>
    intro tr tr' s s' L L' hn hr hr' hc
    -- a write at the end of either history can be dropped
    cases hr with
    | nil =>
      cases hr' with
      | nil => exact ⟨[], h0.inv, h0.inv, ⟨rfl, rfl, rfl, rfl, rfl⟩, rfl⟩
      | @snoc tr' t' M' op' r' _ _ hr' hl' hs' ha' =>
        cases op' with
        | write x v =>
          rw [allocatorCalls_eq, allocatorTrace_snoc, List.append_nil] at hc
          simp only [List.length_append, List.length_cons, List.length_nil] at hn
          obtain ⟨cs, i1, i2, i3, i4⟩ := ih (by simp only [List.length_nil]; omega) .nil hr' hc
          obtain ⟨cs', ⟨rfl, hw, rfl⟩, i5⟩ := i2.step_ok hl' hs' ha'
          refine ⟨_, i1, i5, ?_, by rw [allocatorTrace_snoc, List.append_nil]; exact i4⟩
          rw [hw]; exact i3.setMem (w := s0.w) s0.w.mem _
        | _ =>
          rw [allocatorCalls_eq, allocatorTrace_snoc] at hc
          simp [allocatorCalls] at hc
    | @snoc tr t M op r _ _ hr hl hs ha =>
      cases hop : (match op with | .write _ _ => true | _ => false) with
      | true =>
        cases op with
        | write x v =>
          rw [allocatorCalls_eq (tr ++ _), allocatorTrace_snoc, List.append_nil] at hc
          simp only [List.length_append, List.length_cons, List.length_nil] at hn
          obtain ⟨cs, i1, i2, i3, i4⟩ := ih (by omega) hr hr' hc
          obtain ⟨cs', ⟨rfl, hw, rfl⟩, i5⟩ := i1.step_ok hl hs ha
          refine ⟨_, i5, i2, ?_, by rw [allocatorTrace_snoc, List.append_nil]; exact i4⟩
          rw [hw]; exact i3.setMem _ s'.w.mem
        | _ => cases hop
      | false =>
        have ht : allocatorTrace (tr ++ [(op, r)]) = allocatorTrace tr ++ [(op, r)] := by
          rw [allocatorTrace_snoc]
          cases op <;> first | rfl | cases hop
        cases hr' with
        | nil =>
          rw [allocatorCalls_eq (tr ++ _), ht] at hc
          simp [allocatorCalls] at hc
        | @snoc tr' t' M' op' r' _ _ hr' hl' hs' ha' =>
          cases hop' : (match op' with | .write _ _ => true | _ => false) with
          | true =>
            cases op' with
            | write x v =>
              rw [allocatorCalls_eq (tr' ++ _), allocatorTrace_snoc, List.append_nil] at hc
              simp only [List.length_append, List.length_cons, List.length_nil] at hn
              obtain ⟨cs, i1, i2, i3, i4⟩ := ih (by simp only [List.length_append, List.length_cons, List.length_nil]; omega)
                (hr.snoc hl hs ha) hr' hc
              obtain ⟨cs', ⟨rfl, hw, rfl⟩, i5⟩ := i2.step_ok hl' hs' ha'
              refine ⟨_, i1, i5, ?_, by rw [allocatorTrace_snoc, List.append_nil]; exact i4⟩
              rw [hw]; exact i3.setMem s.w.mem _
            | _ => cases hop'
          | false =>
            have ht' : allocatorTrace (tr' ++ [(op', r')]) = allocatorTrace tr' ++ [(op', r')] := by
              rw [allocatorTrace_snoc]
              cases op' <;> first | rfl | cases hop'
            rw [allocatorCalls_eq, allocatorCalls_eq, ht, ht', List.map_append, List.map_append] at hc
            obtain ⟨hc1, hc2⟩ := List.append_inj' hc rfl
            simp only [List.map_cons, List.map_nil, List.cons.injEq, and_true] at hc2
            subst hc2
            simp only [List.length_append, List.length_cons, List.length_nil] at hn
            obtain ⟨cs, i1, i2, i3, i4⟩ := ih (by omega) hr hr' hc1
            have hm : t'.a.minChunk = t.a.minChunk := i2.min.trans i1.min.symm
            obtain ⟨cs1, o1, j1⟩ := i1.step_ok hl hs ha
            obtain ⟨cs2, o2, j2⟩ := i2.step_ok hl' hs' ha'
            rw [hm] at o2
            obtain ⟨d1, d2, d3⟩ := OpRes.det i3 o1 o2
            subst d1; subst d2
            exact ⟨_, j1, j2, d3, by rw [ht, ht', i4]⟩

/-- C53: two histories that make the same allocator calls, with arbitrary and different stores of the owners into their
blocks in between, get the same answers, make the same requests to the underlying allocator, leave the allocator in the same
state, and every further call has the same outcome in both. -/
theorem C53_content_independent {s0 s s' : St} {L L' : List Owned} (h0 : Start s0) {tr tr' : List (Op × Resp)}
    (hr : Run s0 [] tr s L) (hr' : Run s0 [] tr' s' L') (hc : allocatorCalls tr' = allocatorCalls tr) :
    allocatorTrace tr' = allocatorTrace tr ∧ s'.a = s.a ∧ Quiet s s' ∧
      ∀ op, Legal L op → Legal L' op → (step s' op).map (·.1) = (step s op).map (·.1) := by
  obtain ⟨cs, i1, i2, i3, i4⟩ := content_indep h0 _ (Nat.le_refl _) hr hr' hc
  refine ⟨i4, ?_, ⟨i3.calls, i3.log, i3.held⟩, fun op hl hl' => i1.same_answer i2 i3 hl hl'⟩
  have e1 := i1.eta
  have e2 := i2.eta
  rw [e1, e2]
  simp only
  rw [i1.min, i2.min]

/-- Non-vacuity: two histories with different stores, in different numbers, in between. -/
example : ∃ s0 s s' L L' tr tr', Start s0 ∧ Run s0 [] tr s L ∧ Run s0 [] tr' s' L' ∧ allocatorCalls tr' = allocatorCalls tr ∧
    tr'.length = 4 ∧ tr.length = 3 ∧ s'.w.mem 65568 ≠ s.w.mem 65568 := by
  have hx : (execAll (demoStart [512, 2048]) [] [.allocate ⟨100, 8⟩, .write 65568 (.raw 1), .allocate ⟨900, 8⟩]).any (fun x =>
      (execAll (demoStart [512, 2048]) [] [.allocate ⟨100, 8⟩, .write 65568 (.raw 2), .write 65569 (.raw 2), .allocate ⟨900, 8⟩]).any
      (fun y => x.1.length == 3 && y.1.length == 4 && decide (y.2.1.w.mem 65568 ≠ x.2.1.w.mem 65568))) = true := by decide +kernel
  cases he : execAll (demoStart [512, 2048]) [] [.allocate ⟨100, 8⟩, .write 65568 (.raw 1), .allocate ⟨900, 8⟩] with
  | none => rw [he] at hx; cases hx
  | some x =>
    rw [he] at hx
    simp only [Option.any_some] at hx
    cases hf : execAll (demoStart [512, 2048]) []
        [.allocate ⟨100, 8⟩, .write 65568 (.raw 2), .write 65569 (.raw 2), .allocate ⟨900, 8⟩] with
    | none => rw [hf] at hx; cases hx
    | some y =>
      obtain ⟨rs, s, L⟩ := x
      obtain ⟨rs', s', L'⟩ := y
      rw [hf] at hx
      simp only [Option.any_some, Bool.and_eq_true, beq_iff_eq, decide_eq_true_eq] at hx
      obtain ⟨⟨h1, h2⟩, h3⟩ := hx
      refine ⟨_, s, s', L, L', _, _, demoStart_start _ 256 (by decide), execAll_sound he, execAll_sound hf, ?_, ?_, ?_, h3⟩
      · match rs, rs', h1, h2 with
        | [_, _, _], [_, _, _, _], _, _ => rfl
      · simp [List.length_zip, h2]
      · simp [List.length_zip, h1]

/-! ### C54 -/

/-- C54: `into_inner` calls nothing and touches nothing; the blocks obtained and not given back stay held for ever. -/
theorem C54_into_inner {s0 s : St} {L : List Owned} (h : Reach s0 s L) :
    ∃ w, s.a.intoInner s.w = .ok ((), w) ∧ w.log = s.w.log ∧ w.mem = s.w.mem ∧
      w.held.Perm (openBlocks s.w.log ++ s0.w.held) :=
  ⟨s.w, rfl, rfl, rfl, C02_held h⟩

/-- C54: after `reset_final`, `into_inner` leaks nothing. -/
theorem C54_no_leak_after_reset_final {s0 s s' : St} {L : List Owned} (h : Reach s0 s L) {r : Resp}
    (hs : step s .resetFinal = .ok (r, s')) : ∃ w, s'.a.intoInner s'.w = .ok ((), w) ∧ w.held.Perm s0.w.held := by
  obtain ⟨s1, h1, h2, _⟩ := C11_no_leak h
  rw [h1] at hs
  injection hs with hs
  injection hs with e1 e2
  subst e2
  exact ⟨s1.w, rfl, h2⟩

/-- C54: dropping instead gives everything back. -/
theorem C54_drop {s0 s : St} {L : List Owned} (h : Reach s0 s L) :
    ∃ w, s.a.scopeEnd false s.w = .ok ((), w) ∧ w.held.Perm s0.w.held := by
  obtain ⟨s1, h1, h2, _, h3⟩ := C11_no_leak h
  simp only [step] at h1
  cases hr : s.a.resetFinal s.w with
  | error e => rw [hr] at h1; cases h1
  | ok x =>
    obtain ⟨a, w⟩ := x
    rw [hr] at h1
    simp only [bind, Except.bind, pure, Except.pure, Except.ok.injEq, Prod.mk.injEq, true_and] at h1
    rw [← h1] at h2 h3
    refine ⟨w, ?_, h2⟩
    unfold BA.scopeEnd
    simp only [Bool.false_eq_true, if_false]
    rw [bind_ok hr]
    simp [dassert, show a.root = 0 from h3]

/-- Non-vacuity: two chunks are open. -/
example : ∃ s0 s L, Reach s0 s L ∧ (openBlocks s.w.log).length = 2 := by
  obtain ⟨s, L, r, s', h1, h2, h3, _, h4⟩ := of_demoAt (sizes := [512, 2048]) (m := 256)
    (ops := [.allocate ⟨100, 8⟩, .allocate ⟨900, 8⟩])
    (op := .reset) (f := fun s _ _ _ => (openBlocks s.w.log).length == 2) (by decide) (by decide +kernel)
  exact ⟨_, s, L, h1, by simpa using h4⟩

end Blink
