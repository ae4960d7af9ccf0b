import Verif.Props.Footprint
/-
  C65, the positive part: how much memory a `SyncBlinkAlloc` asks for and holds as long as the race behind `C65_full_false` does
  not happen.
-/
namespace Blink

/-! ### Histories without that race -/

/-- How long the log of the underlying allocator was when each thread made its latest call. -/
def Act.mark (s : SS) (n : Nat → Nat) : Act → Nat → Nat
  | .call t _ => put n t s.w.log.length
  | _ => n

/-- A history in which no thread makes a request of the underlying allocator if another thread made one since it was called: every
request finds the log as it was when its call began. Nothing else is restricted: any number of threads may be inside, interleaved
in any way, and take space from the chunk at the same time. -/
inductive LoneRun (s0 : SS) : List (Act × Option Resp) → SS → Book → (Nat → Nat) → Prop
  | nil : LoneRun s0 [] s0 Book.empty (fun _ => 0)
  | snoc {tr s K n a r s' K'} (h : LoneRun s0 tr s K n) (hl : SLegal K a) (hs : sstep s a = .ok (some (r, s')))
      (ha : SAfter s.w.mem K a r K')
      (hq : ∀ t ch, a = .go t ch → s'.w.log ≠ s.w.log → s.w.log.length = n t) :
      LoneRun s0 (tr ++ [(a, r)]) s' K' (a.mark s n)

theorem LoneRun.run {s0 tr s K n} (h : LoneRun s0 tr s K n) : SRun s0 Book.empty tr s K := by
  induction h with
  | nil => exact .nil
  | snoc h hl hs ha hq ih => exact ih.snoc hl hs ha

/-- Cost since the last reset, and the largest cost between two resets so far. -/
def sroundStep (p : Nat × Nat) (x : Act × Option Resp) : Nat × Nat :=
  if x.1.resets then (0, p.2) else (p.1 + x.1.cost, max p.2 (p.1 + x.1.cost))

/-- The largest total cost (sizes plus padding) of the calls begun between two resets. -/
def speakRound (tr : List (Act × Option Resp)) : Nat := (tr.foldl sroundStep (0, 0)).2

/-! ### The chunks are determined by memory and log -/

theorem rep_unique {m : Nat → Byte} {cs cs' : List Chunk} (h : Rep m cs) (h' : Rep m cs') (ho : ∀ c ∈ cs, ChunkOK c)
    (ho' : ∀ c ∈ cs', ChunkOK c) (he : cs.map Chunk.blk = cs'.map Chunk.blk) : cs = cs' := by
  induction cs generalizing cs' with
  | nil => cases cs' with
    | nil => rfl
    | cons => cases he
  | cons c t ih =>
    cases cs' with
    | nil => cases he
    | cons d u =>
      simp only [List.map_cons, List.cons.injEq] at he
      obtain ⟨h1, h2⟩ := he
      have ht := ih h.2 h'.2 (fun x hx => ho x (List.mem_cons_of_mem _ hx)) (fun x hx => ho' x (List.mem_cons_of_mem _ hx)) h2
      subst ht
      have c1 := ho c List.mem_cons_self
      have d1 := ho' d List.mem_cons_self
      have := c1.lo; have := c1.hi; have := d1.lo; have := d1.hi
      simp only [Chunk.blk, BaseBlk.mk.injEq, Layout.mk.injEq] at h1
      obtain ⟨e1, e2, e3, _⟩ := h1
      obtain ⟨⟨a1, _, _, a4⟩, _⟩ := h
      obtain ⟨⟨b1, _, _, b4⟩, _⟩ := h'
      have k1 := decodeWord_of a1
      have k4 := decodeWord_of a4
      rw [e1] at k1 k4
      rw [decodeWord_of b1] at k1
      rw [decodeWord_of b4] at k4
      injection k1 with k1
      injection k4 with k4
      cases c; cases d
      simp only at *
      subst e1 e3 k1 k4
      simp only [List.cons.injEq, Chunk.mk.injEq, true_and, and_true]
      omega

theorem SInv.retype {s0 s cs cs' K B} (h : SInv s0 s cs K B) (ha : AInv s.w cs' s0.w.held) (hl : LogInv s.w.log cs') : cs = cs' :=
  rep_unique h.arena.rep ha.rep h.arena.ok ha.ok (h.log.1.symm.trans hl.1)

theorem roundUp_mono' {a b k : Nat} (hk : 0 < k) (h : a ≤ b) : roundUp a k ≤ roundUp b k := by
  have ha := roundUp_facts a hk
  have hb := roundUp_facts b hk
  apply Decidable.byContradiction
  intro hc
  have h1 := Nat.div_add_mod (roundUp a k) k
  have h2 := Nat.div_add_mod (roundUp b k) k
  rw [ha.2.2] at h1
  rw [hb.2.2] at h2
  have h3 : roundUp b k / k < roundUp a k / k := by
    apply Nat.lt_of_mul_lt_mul_left (a := k)
    omega
  have h4 : k * (roundUp b k / k + 1) ≤ k * (roundUp a k / k) := Nat.mul_le_mul_left k h3
  rw [Nat.mul_add] at h4
  omega

theorem bump_none_mono {v c e : Nat} {l : Layout} (hl : l.Valid) (h : bump v e l = none) (hv : v ≤ c) : bump c e l = none := by
  obtain ⟨k, _, hk, hpos, _⟩ := hl.facts
  unfold bump at h ⊢
  split at h
  · cases h
  · rename_i hn
    apply if_neg
    intro hc
    have := roundUp_mono' hpos hv
    exact hn ⟨by omega, by omega⟩

/-! ### The invariant -/

/-- Inside a call whose space has not been taken yet. -/
def Pc.pending : Pc → Bool
  | .idle | .ret .. | .copy .. => false
  | _ => true

/-- The cursor a thread has read. -/
def Pc.had : Pc → Option Nat
  | .cas _ _ v => some v
  | .rcas _ _ _ _ v => some v
  | _ => none

/-- On the way to a request. -/
def Pc.waits : Pc → Option Job
  | .unlockSlow j | .wr j | .slow j => some j
  | _ => none

/-- Cost of the call a thread is executing. -/
def Book.cost (K : Book) (t : Nat) : Nat :=
  match K.busy t with
  | some (c, _) => (Act.call t c).cost
  | none => 0

structure LoneInv (m : Nat) (s : SS) (cs : List Chunk) (K : Book) (n : Nat → Nat) (p : Nat × Nat) : Prop where
  grown : Grown cs
  paid : ∃ (done : Nat) (Q : List Nat), Paid cs done ∧ Q.Nodup ∧ (∀ t, t ∈ Q ↔ (s.pcs t).pending = true) ∧ done + (Q.map K.cost).sum ≤ p.1
  peak : p.1 ≤ p.2
  had : ∀ t v, (s.pcs t).had = some v → ∀ c tl, cs = c :: tl → v ≤ c.cursor
  room : ∀ t j, (s.pcs t).waits = some j → s.w.log.length = n t → j.layout.Valid ∧ NoFit cs j.layout
  len : ∀ t, (s.pcs t).pending = true → n t ≤ s.w.log.length
  req : ∀ R, (.refused R ∈ s.w.log ∨ ∃ b, .alloc R b ∈ s.w.log) → R.size ≤ 2 * p.2 + m + 16488

theorem Pc.waits_pending {pc : Pc} {j} (h : pc.waits = some j) : pc.pending = true := by
  cases pc <;> first | rfl | cases h

theorem Pc.had_holds {pc : Pc} {v} (h : pc.had = some v) : pc.holdsR = true := by
  cases pc <;> first | rfl | cases h

/-- The book matters only through what pending calls cost. -/
theorem LoneInv.book {m s cs K n p} (h : LoneInv m s cs K n p) {K' : Book}
    (hk : ∀ t, (s.pcs t).pending = true → K'.cost t = K.cost t) : LoneInv m s cs K' n p := by
  refine ⟨h.grown, ?_, h.peak, h.had, h.room, h.len, h.req⟩
  obtain ⟨done, Q, h1, h2, h3, h4⟩ := h.paid
  refine ⟨done, Q, h1, h2, h3, ?_⟩
  rwa [List.map_congr_left (g := K.cost) (fun t ht => hk t ((h3 t).mp ht))]

/-- A step that neither takes space nor makes a request. -/
theorem LoneInv.quiet {m s cs K n p} (h : LoneInv m s cs K n p) {s' : SS} {t : Nat} {pc : Pc} (hp : s'.pcs = put s.pcs t pc)
    (hlog : s'.w.log = s.w.log) (ho : (s.pcs t).pending = pc.pending)
    (hh : ∀ v, pc.had = some v → ∀ c tl, cs = c :: tl → v ≤ c.cursor)
    (hw : ∀ j, pc.waits = some j → s.w.log.length = n t → j.layout.Valid ∧ NoFit cs j.layout) : LoneInv m s' cs K n p := by
  have hpend : ∀ u, (s'.pcs u).pending = (s.pcs u).pending := by
    intro u
    rw [hp]
    by_cases hu : u = t
    · subst hu; rw [put_same, ho]
    · rw [put_ne _ _ hu]
  refine ⟨h.grown, ?_, h.peak, ?_, ?_, ?_, ?_⟩
  · obtain ⟨done, Q, h1, h2, h3, h4⟩ := h.paid
    exact ⟨done, Q, h1, h2, fun u => by rw [hpend]; exact h3 u, h4⟩
  · intro u v hv
    rw [hp] at hv
    by_cases hu : u = t
    · subst hu; rw [put_same] at hv; exact hh v hv
    · rw [put_ne _ _ hu] at hv; exact h.had u v hv
  · intro u j hv
    rw [hp] at hv
    rw [hlog]
    by_cases hu : u = t
    · subst hu; rw [put_same] at hv; exact hw j hv
    · rw [put_ne _ _ hu] at hv; exact h.room u j hv
  · intro u hv
    rw [hpend] at hv
    rw [hlog]
    exact h.len u hv
  · rw [hlog]; exact h.req

/-- The cursor of the newest chunk only moved up. -/
def Advanced (cs cs' : List Chunk) : Prop :=
  cs' = cs ∨ ∃ c tl k, cs = c :: tl ∧ c.cursor ≤ k ∧ cs' = { c with cursor := k } :: tl

/-- A step with which a pending call takes its space, gets a new chunk, or fails. -/
theorem LoneInv.close {m s cs K n p} (h : LoneInv m s cs K n p) {s' : SS} {cs' : List Chunk} {t : Nat} {pc : Pc}
    (hp : s'.pcs = put s.pcs t pc) (ho : (s.pcs t).pending = true) (hc : pc.pending = false) (hg : Grown cs')
    (hpaid : ∀ d, Paid cs d → Paid cs' (d + K.cost t))
    (hrest : (s'.w.log = s.w.log ∧ Advanced cs cs') ∨
      (s.w.log.length < s'.w.log.length ∧ ∀ u, u ≠ t → (s.pcs u).had = none))
    (hreq : ∀ d, Paid cs d → d + K.cost t ≤ p.2 → ∀ R, (.refused R ∈ s'.w.log ∨ ∃ b, .alloc R b ∈ s'.w.log) →
      (.refused R ∈ s.w.log ∨ ∃ b, .alloc R b ∈ s.w.log) ∨ R.size ≤ 2 * p.2 + m + 16488) : LoneInv m s' cs' K n p := by
  have hnh : ∀ v, pc.had ≠ some v := by intro v hv; cases pc <;> first | (cases hc; done) | (cases hv; done)
  have hnw : ∀ j, pc.waits ≠ some j := by intro v hv; cases pc <;> first | (cases hc; done) | (cases hv; done)
  obtain ⟨done, Q, h1, h2, h3, h4⟩ := h.paid
  have htQ := (h3 t).mpr ho
  have hsum : (Q.map K.cost).sum = K.cost t + ((Q.erase t).map K.cost).sum := by
    have := ((List.perm_cons_erase htQ).map K.cost).sum_nat
    rwa [List.map_cons, List.sum_cons] at this
  have hpk := h.peak
  refine ⟨hg, ⟨done + K.cost t, Q.erase t, hpaid done h1, h2.erase t, ?_, by omega⟩, h.peak, ?_, ?_, ?_, ?_⟩
  · intro u
    rw [hp, h2.mem_erase_iff]
    by_cases hu : u = t
    · subst hu; rw [put_same, hc]; simp
    · rw [put_ne _ _ hu, h3 u]; simp [hu]
  · intro u v hv c' tl' hcs'
    rw [hp] at hv
    by_cases hu : u = t
    · subst hu; rw [put_same] at hv; exact absurd hv (hnh v)
    · rw [put_ne _ _ hu] at hv
      rcases hrest with ⟨_, ha⟩ | ⟨_, hn⟩
      · rcases ha with rfl | ⟨c, tl, k, rfl, hk, rfl⟩
        · exact h.had u v hv c' tl' hcs'
        · have := h.had u v hv c tl rfl
          injection hcs' with e1 _
          rw [← e1]
          exact Nat.le_trans this hk
      · rw [hn u hu] at hv; cases hv
  · intro u j hv hlen
    rw [hp] at hv
    by_cases hu : u = t
    · subst hu; rw [put_same] at hv; exact absurd hv (hnw j)
    · rw [put_ne _ _ hu] at hv
      rcases hrest with ⟨hl, ha⟩ | ⟨hl, _⟩
      · rw [hl] at hlen
        obtain ⟨v1, v2⟩ := h.room u j hv hlen
        refine ⟨v1, ?_⟩
        rcases ha with rfl | ⟨c, tl, k, rfl, hk, rfl⟩
        · exact v2
        · intro c' tl' hcs'
          injection hcs' with e1 _
          rw [← e1]
          exact bump_none_mono v1 (v2 c tl rfl) hk
      · have := h.len u (Pc.waits_pending hv)
        omega
  · intro u hv
    rw [hp] at hv
    have hle : s.w.log.length ≤ s'.w.log.length := by
      rcases hrest with ⟨hl, _⟩ | ⟨hl, _⟩
      · rw [hl]; exact Nat.le_refl _
      · omega
    by_cases hu : u = t
    · subst hu; rw [put_same, hc] at hv; cases hv
    · rw [put_ne _ _ hu] at hv; exact Nat.le_trans (h.len u hv) hle
  · intro R hR
    rcases hreq done h1 (by omega) R hR with h5 | h5
    · exact h.req R h5
    · exact h5

theorem JobOK.cost {m sn j B} {K : Book} {t : Nat} (h : JobOK m sn (K.busy t) j B) :
    K.cost t = j.layout.size + j.layout.align - 1 := by
  unfold Book.cost
  generalize hb : K.busy t = b at h
  cases h <;> rfl

theorem setPc_put (s : SS) (t : Nat) (pc : Pc) : (s.setPc t pc).pcs = put s.pcs t pc := rfl

theorem Job.got_pending (wr : Bool) (b : Slice) (j : Job) : (j.got wr b).pending = false := by cases j <;> rfl

/-- What the thread at a place with a job is working on. -/
theorem SInv.jobOK {s0 s cs K B} (h : SInv s0 s cs K B) {t : Nat} {j : Job}
    (hpc : (∃ r, s.pcs t = .load r j) ∨ (∃ r v, s.pcs t = .cas r j v) ∨ s.pcs t = .unlockSlow j ∨ s.pcs t = .wr j ∨ s.pcs t = .slow j) :
    ∃ Bt, JobOK s.w.mem (K.snap t) (K.busy t) j Bt := by
  have ht := h.thr t
  rcases hpc with ⟨r, h1⟩ | ⟨r, v, h1⟩ | h1 | h1 | h1 <;> rw [h1] at ht <;> generalize K.busy t = bz at ht ⊢ <;>
    generalize B t = Bt at ht <;> cases ht <;> exact ⟨_, ‹_›⟩

theorem SInv.jobOKr {s0 s cs K B} (h : SInv s0 s cs K B) {t r p : Nat} {old new : Layout} {v : Nat}
    (hpc : s.pcs t = .rcas r p old new v) : old.size < new.size ∧ ∃ Bt, JobOK s.w.mem (K.snap t) (K.busy t) (.resize p old new) Bt := by
  have ht := h.thr t
  rw [hpc] at ht
  generalize K.busy t = bz at ht ⊢
  generalize B t = Bt at ht
  cases ht with
  | rcas hr hj ha hs => exact ⟨hs, _, hj⟩

theorem had_le {s0 s cs K B c tl} (h : SInv s0 s cs K B) (hcs : cs = c :: tl) (i : Nat) :
    (c.cursor :: s.seen).getD i c.cursor ≤ c.cursor := by
  cases i with
  | zero => exact Nat.le_refl _
  | succ i =>
    rw [List.getD_cons_succ, List.getD_eq_getElem?_getD]
    cases hi : s.seen[i]? with
    | none => exact Nat.le_refl _
    | some v => exact h.seen c tl hcs v (List.mem_of_getElem? hi)

/-- The write lock keeps readers out. -/
theorem SInv.no_reader {s0 s cs K B} (h : SInv s0 s cs K B) {t : Nat} {j : Job} (hpc : s.pcs t = .slow j) (u : Nat) :
    (s.pcs u).had = none := by
  cases hv : (s.pcs u).had with
  | none => rfl
  | some v =>
    exfalso
    have h1 := (h.lock.rd u).mpr (Pc.had_holds hv)
    have h2 := (h.lock.wr t).mpr (by rw [hpc]; rfl)
    rw [h.lock.excl (by rw [h2]; simp)] at h1
    cases h1

/-- A request is at most linear in what was paid for. -/
theorem request_le {w cs F m l R d k} (h : AInv w cs F) (hv : l.Valid) (hp : Paid cs d) (hk : k = l.size + l.align - 1)
    (hR : chunkReq (rootCum cs) m l = some R) {p : Nat} (hd : d + k ≤ p) : R ≤ 2 * p + m + 16488 := by
  have hcum : need (rootCum cs) m l ≤ m + 2 * d + max l.size 64 + l.align + 32 := by
    cases cs with
    | nil => simp only [need, rootCum, List.head?_nil, Option.map_none]; split <;> omega
    | cons c t =>
      have h2 := h.cum.1
      have h3 := hp.tail (fun d hd => h.ok d (List.mem_cons_of_mem _ hd))
      simp only [need, rootCum, List.head?_cons, Option.map_some]
      split <;> omega
  have h4 := (req_tight hR).1
  obtain ⟨k', _, hk', hpos, _⟩ := hv.facts
  omega

/-- A step inside a call. -/
theorem LoneInv.go {s0 s cs K B n p} (hi : SInv s0 s cs K B) (h : LoneInv s0.minChunk s cs K n p) {t : Nat} {ch : Choice}
    {r : Option Resp} {s' : SS} (hg : GoRes s cs t ch r s') (hq : s'.w.log ≠ s.w.log → s.w.log.length = n t) :
    ∃ cs', AInv s'.w cs' s0.w.held ∧ LogInv s'.w.log cs' ∧ LoneInv s0.minChunk s' cs' K n p := by
  have same : ∀ pc, s'.pcs = put s.pcs t pc → s'.w = s.w → (s.pcs t).pending = pc.pending →
      (∀ v, pc.had = some v → ∀ c tl, cs = c :: tl → v ≤ c.cursor) →
      (∀ j, pc.waits = some j → s.w.log.length = n t → j.layout.Valid ∧ NoFit cs j.layout) →
      ∃ cs', AInv s'.w cs' s0.w.held ∧ LogInv s'.w.log cs' ∧ LoneInv s0.minChunk s' cs' K n p := by
    intro pc h1 h2 h3 h4 h5
    exact ⟨cs, by rw [h2]; exact hi.arena, by rw [h2]; exact hi.log, h.quiet h1 (by rw [h2]) h3 h4 h5⟩
  have done : ∀ pc, s'.pcs = put s.pcs t pc → s'.w = s.w → (s.pcs t).pending = true → pc.pending = false →
      ∃ cs', AInv s'.w cs' s0.w.held ∧ LogInv s'.w.log cs' ∧ LoneInv s0.minChunk s' cs' K n p := by
    intro pc h1 h2 h3 h4
    refine ⟨cs, by rw [h2]; exact hi.arena, by rw [h2]; exact hi.log, h.close h1 h3 h4 h.grown (fun d hd => hd.mono (by omega))
      (.inl ⟨by rw [h2], .inl rfl⟩) ?_⟩
    intro d _ _ R hR
    rw [h2] at hR
    exact .inl hR
  have slowcase : ∀ j o w' cs' pc, s.pcs t = .slow j → allocSlow s.root s.minChunk j.layout s.w = .ok ((o, rootOf cs'), w') →
      s'.pcs = put s.pcs t pc → s'.w = w' → pc.pending = false →
      ∃ cs', AInv s'.w cs' s0.w.held ∧ LogInv s'.w.log cs' ∧ LoneInv s0.minChunk s' cs' K n p := by
    intro j o w' cs1 pc hpc he hp hw hc
    obtain ⟨Bt, hj⟩ := hi.jobOK (j := j) (.inr (.inr (.inr (.inr hpc))))
    rcases allocSlow_spec hi.arena hj.valid hi.dbg with ⟨e', _, he'⟩ | ⟨o', w'', cs', he', hsl, hA⟩
    · rw [← hi.root, he] at he'; cases he'
    rw [← hi.root, he] at he'
    injection he' with he'
    injection he' with he1 he2
    injection he1 with he1 he3
    subst he1 he2
    have hcost := hj.cost
    have hpend : (s.pcs t).pending = true := by rw [hpc]; rfl
    have hL := hsl.log hi.log
    refine ⟨cs', by rw [hw]; exact hA, by rw [hw]; exact hL, ?_⟩
    have key : (w'.log = s.w.log ∧ cs' = cs) ∨ (s.w.log.length < w'.log.length ∧ w'.log ≠ s.w.log) := by
      cases hsl with
      | tooBig => exact .inl ⟨rfl, rfl⟩
      | refused => exact .inr ⟨by simp, by simp⟩
      | ok => exact .inr ⟨by simp, by simp⟩
    rcases key with ⟨k1, k2⟩ | ⟨k1, k2⟩
    · subst k2
      refine h.close hp hpend hc h.grown (fun d hd => hd.mono (by omega)) (.inl ⟨by rw [hw, k1], .inl rfl⟩) ?_
      intro d _ _ R hR
      rw [hw, k1] at hR
      exact .inl hR
    · have hnf := (h.room t j (by rw [hpc]; rfl) (hq (by rw [hw]; exact k2))).2
      have hres : AllocRes s.w cs s.minChunk j.layout o w' cs' := .slow hnf hsl
      refine h.close hp hpend hc (hres.grown hi.arena h.grown) ?_ (.inr ⟨by rw [hw]; exact k1, fun u _ => hi.no_reader hpc u⟩) ?_
      · intro d hd
        rw [hcost]
        exact hres.paid hi.arena hj.valid hd
      · intro d hd hdp R hR
        rw [hw] at hR
        have hmin := hi.min
        cases hsl with
        | tooBig => exact .inl hR
        | refused R' hreq ho =>
          have := request_le hi.arena hj.valid hd hcost hreq hdp
          rcases hR with hR | ⟨b, hR⟩
          · rcases List.mem_cons.mp hR with hR | hR
            · injection hR with hR; subst hR; right; dsimp only; omega
            · exact .inl (.inl hR)
          · rcases List.mem_cons.mp hR with hR | hR
            · cases hR
            · exact .inl (.inr ⟨b, hR⟩)
        | ok R' sl m' hreq ho hf hbm hm hu =>
          have := request_le hi.arena hj.valid hd hcost hreq hdp
          rcases hR with hR | ⟨b, hR⟩
          · rcases List.mem_cons.mp hR with hR | hR
            · cases hR
            · exact .inl (.inl hR)
          · rcases List.mem_cons.mp hR with hR | hR
            · injection hR with hR _; subst hR; right; dsimp only; omega
            · exact .inl (.inr ⟨b, hR⟩)
  cases hg with
  | @acq c hpc hw =>
    have hnil : s.root = 0 → cs = [] := by
      intro h0
      rw [hi.root] at h0
      exact (rootOf_eq_zero hi.arena.ok).mp h0
    have hpend : (s.pcs t).pending = true := by rw [hpc]; rfl
    have hval : ∀ l, c.wants = some l → l.Valid := by
      intro l hl
      have ht := hi.thr t
      rw [hpc] at ht
      generalize K.busy t = bz at ht
      generalize B t = Bt at ht
      cases ht with
      | rdAlloc hv => injection hl with hl; subst hl; exact hv
      | rdResize hj => injection hl with hl; subst hl; exact hj.valid
      | rdDealloc => cases hl
    cases c with
    | allocate l =>
      by_cases h0 : s.root = 0
      · refine same (.unlockSlow (.alloc l)) (by simp only [setPc_put, enter, if_pos h0]) rfl (by rw [hpend]; rfl)
          (fun v hv => nomatch hv) ?_
        rintro j hj _
        injection hj with hj; subst hj
        exact ⟨hval l rfl, by rw [hnil h0]; intro c t h; cases h⟩
      · exact same (.load s.root (.alloc l)) (by simp only [setPc_put, enter, if_neg h0]) rfl (by rw [hpend]; rfl)
          (fun v hv => nomatch hv) (fun v hv => nomatch hv)
    | resize q old new =>
      by_cases h0 : s.root = 0
      · refine same (.unlockSlow (.resize q old new)) (by simp only [setPc_put, enter, if_pos h0]) rfl (by rw [hpend]; rfl)
          (fun v hv => nomatch hv) ?_
        rintro j hj _
        injection hj with hj; subst hj
        exact ⟨hval new rfl, by rw [hnil h0]; intro c t h; cases h⟩
      · by_cases h1 : new.align ≤ old.align
        · by_cases h2 : new.size ≤ old.size
          · exact done (.ret false (.block ⟨q, old.size⟩)) (by simp only [setPc_put, enter, if_neg h0, if_pos h1, if_pos h2]) rfl hpend rfl
          · exact same (.rload s.root q old new) (by simp only [setPc_put, enter, if_neg h0, if_pos h1, if_neg h2]) rfl
              (by rw [hpend]; rfl) (fun v hv => nomatch hv) (fun v hv => nomatch hv)
        · exact same (.load s.root (.resize q old new)) (by simp only [setPc_put, enter, if_neg h0, if_neg h1]) rfl
              (by rw [hpend]; rfl) (fun v hv => nomatch hv) (fun v hv => nomatch hv)
    | deallocate q k =>
      by_cases h0 : s.root = 0
      · exact done (.ret false .unit) (by simp only [setPc_put, enter, if_pos h0]) rfl hpend rfl
      · exact same (.free s.root q k) (by simp only [setPc_put, enter, if_neg h0]) rfl (by rw [hpend]; rfl)
          (fun v hv => nomatch hv) (fun v hv => nomatch hv)
  | @load c tl j hpc hcs hr =>
    refine same _ rfl rfl (by rw [hpc]; rfl) ?_ (fun v hv => nomatch hv)
    intro v hv c' tl' hcs'
    injection hv with hv
    subst hcs
    injection hcs' with e1 e2
    rw [← hv, ← e1]
    exact had_le hi rfl _
  | @noroom c tl j v hpc hcs hr hb =>
    refine same _ rfl rfl (by rw [hpc]; rfl) (fun v hv => nomatch hv) ?_
    intro j' hj' _
    injection hj' with hj'; subst hj'
    obtain ⟨Bt, hj⟩ := hi.jobOK (j := j) (.inr (.inl ⟨_, _, hpc⟩))
    refine ⟨hj.valid, ?_⟩
    intro c' tl' hcs'
    have := h.had t v (by rw [hpc]; rfl) c tl hcs
    rw [hcs] at hcs'
    injection hcs' with e1 e2
    rw [← e1]
    exact bump_none_mono hj.valid hb this
  | @commit c tl j a hpc hcs hr hb hsp =>
    subst hcs
    obtain ⟨Bt, hj⟩ := hi.jobOK (j := j) (.inr (.inl ⟨_, _, hpc⟩))
    have hbf := bump_facts hj.valid hb
    have he := Eff.cursor hi.arena (n := a + j.layout.size) (by omega) hbf.2.2.2
    have hres : AllocRes s.w (c :: tl) s.minChunk j.layout _ _ _ := .fast c tl a rfl hb
    refine ⟨_, he.inv, he.log hi.log, h.close (pc := j.got false ⟨a, j.layout.size⟩) rfl (by rw [hpc]; rfl) (j.got_pending _ _)
      h.grown.cursor ?_ (.inl ⟨rfl, .inr ⟨c, tl, a + j.layout.size, rfl, by omega, rfl⟩⟩) (fun _ _ _ R hR => .inl hR)⟩
    intro d hd
    rw [hj.cost]
    exact hres.paid hi.arena hj.valid hd
  | @retry c tl j v a hpc hcs hr hb hf =>
    refine same _ rfl rfl (by rw [hpc]; rfl) ?_ (fun v hv => nomatch hv)
    intro v hv c' tl' hcs'
    injection hv with hv
    subst hcs
    injection hcs' with e1 e2
    rw [← hv, ← e1]
    exact had_le hi rfl _
  | @rtip c tl q old new hpc hcs hr hv0 =>
    refine same _ rfl rfl (by rw [hpc]; rfl) ?_ (fun v hv => nomatch hv)
    intro v hv c' tl' hcs'
    injection hv with hv
    subst hcs
    injection hcs' with e1 e2
    rw [← hv, ← e1, ← hv0]
    exact had_le hi rfl _
  | rnot hpc => exact same _ rfl rfl (by rw [hpc]; rfl) (fun v hv => nomatch hv) (fun v hv => nomatch hv)
  | @rnoroom c tl q old new hpc hcs hr hb =>
    refine same _ rfl rfl (by rw [hpc]; rfl) (fun v hv => nomatch hv) ?_
    intro j' hj' _
    injection hj' with hj'; subst hj'
    obtain ⟨hlt, Bt, hj⟩ := hi.jobOKr hpc
    refine ⟨hj.valid, ?_⟩
    intro c' tl' hcs'
    have h1 := h.had t _ (by rw [hpc]; rfl) c tl hcs
    rw [hcs] at hcs'
    injection hcs' with e1 e2
    rw [← e1]
    obtain ⟨k, _, hk, hpos, _⟩ := hj.valid.facts
    have h2 := roundUp_facts c.cursor hpos
    unfold bump
    apply if_neg
    simp only [Job.layout] at *
    omega
  | @rcommit c tl q old new hpc hcs hr hb hv =>
    subst hcs
    obtain ⟨hlt, Bt, hj⟩ := hi.jobOKr hpc
    have he := Eff.cursor hi.arena (n := q + new.size) (by omega) hb
    refine ⟨_, he.inv, he.log hi.log, h.close (pc := .ret false (.block ⟨q, new.size⟩)) rfl (by rw [hpc]; rfl) rfl
      h.grown.cursor ?_ (.inl ⟨rfl, .inr ⟨c, tl, q + new.size, rfl, by omega, rfl⟩⟩) (fun _ _ _ R hR => .inl hR)⟩
    intro d hd
    rw [hj.cost]
    obtain ⟨k, _, hk, hpos, _⟩ := hj.valid.facts
    have := (hi.arena.ok c List.mem_cons_self).lo
    obtain ⟨p1, p2⟩ := hd
    refine ⟨?_, ?_⟩
    · simp only [List.map_cons, List.sum_cons, Chunk.used, Job.layout] at *
      omega
    · simp only [List.tail_cons] at *
      omega
  | rfail hpc => exact same _ rfl rfl (by rw [hpc]; rfl) (fun v hv => nomatch hv) (fun v hv => nomatch hv)
  | free hpc => exact done _ rfl rfl (by rw [hpc]; rfl) rfl
  | @unlock j hpc =>
    refine same _ rfl rfl (by rw [hpc]; rfl) (fun v hv => nomatch hv) ?_
    intro j' hj'
    injection hj' with hj'; subst hj'
    exact h.room t _ (by rw [hpc]; rfl)
  | @wr j hpc =>
    refine same _ rfl rfl (by rw [hpc]; rfl) (fun v hv => nomatch hv) ?_
    intro j' hj'
    injection hj' with hj'; subst hj'
    exact h.room t _ (by rw [hpc]; rfl)
  | slowErr hpc he => exact slowcase _ _ _ _ _ hpc he rfl rfl rfl
  | slowOk hpc he => exact slowcase _ _ _ _ _ hpc he rfl rfl (Job.got_pending _ _ _)
  | @copy wr q old new b k hpc hk hu1 hu2 =>
    exact ⟨cs, hi.arena.setUsed (.inr hu2), hi.log, h.quiet (pc := .copy wr q old new b (k + 1)) rfl rfl (by rw [hpc]; rfl)
      (fun v hv => nomatch hv) (fun v hv => nomatch hv)⟩
  | copied hpc => exact same _ rfl rfl (by rw [hpc]; rfl) (fun v hv => nomatch hv) (fun v hv => nomatch hv)
  | retW hpc => exact same _ rfl rfl (by rw [hpc]; rfl) (fun v hv => nomatch hv) (fun v hv => nomatch hv)
  | retR hpc => exact same _ rfl rfl (by rw [hpc]; rfl) (fun v hv => nomatch hv) (fun v hv => nomatch hv)

theorem LoneRun.lone {s0 tr s K n} (h0 : SStart s0) (hr : LoneRun s0 tr s K n) :
    ∃ cs B, SInv s0 s cs K B ∧ LoneInv s0.minChunk s cs K n (tr.foldl sroundStep (0, 0)) := by
  induction hr with
  | nil =>
    refine ⟨[], _, h0.inv, trivial, ⟨0, [], ⟨by simp, by simp⟩, .nil, ?_, by simp⟩, Nat.le_refl _, ?_, ?_, ?_, ?_⟩
    · intro t; rw [h0.pcs t]; simp [Pc.pending]
    · intro t v hv; rw [h0.pcs t] at hv; cases hv
    · intro t v hv; rw [h0.pcs t] at hv; cases hv
    · intro t hv; rw [h0.pcs t] at hv; cases hv
    · intro R hR
      rw [h0.log] at hR
      rcases hR with hR | ⟨_, hR⟩ <;> cases hR
  | @snoc tr s K n a r s' K' h hl hs ha hq ih =>
    obtain ⟨cs, B, hi, hL⟩ := ih
    obtain ⟨cs2, B2, hi2⟩ := (h.run.snoc hl hs ha).inv h0
    simp only [List.foldl_append, List.foldl_cons, List.foldl_nil]
    obtain ⟨p, hp⟩ : ∃ p, tr.foldl sroundStep (0, 0) = p := ⟨_, rfl⟩
    rw [hp] at hL ⊢
    have fin : ∀ cs', AInv s'.w cs' s0.w.held → LogInv s'.w.log cs' →
        LoneInv s0.minChunk s' cs' K' (a.mark s n) (sroundStep p (a, r)) →
        ∃ cs B, SInv s0 s' cs K' B ∧ LoneInv s0.minChunk s' cs K' (a.mark s n) (sroundStep p (a, r)) := by
      intro cs' h1 h2 h3
      have := hi2.retype h1 h2
      subst this
      exact ⟨_, B2, hi2, h3⟩
    have still : ∀ a : Act, a.resets = false → a.cost = 0 → sroundStep p (a, r) = p := by
      intro a h1 h2
      have := hL.peak
      simp only [sroundStep, h1, h2, Bool.false_eq_true, if_false, Nat.add_zero]
      rw [Nat.max_eq_left this]
    have call : ∀ t c, a = .call t c → K.busy t = none → K'.busy = put K.busy t (K'.busy t) → (∃ ob, K'.busy t = some (c, ob)) →
        s' = s.setPc t (.rd c) →
        ∃ cs B, SInv s0 s' cs K' B ∧ LoneInv s0.minChunk s' cs K' (a.mark s n) (sroundStep p (a, r)) := by
      intro t c hac hb hbusy hc hss
      obtain ⟨ob, hc⟩ := hc
      have hidle := (hi.busy_none hb).1
      subst hac
      have hKt : K'.cost t = (Act.call t c).cost := by unfold Book.cost; rw [hc]
      have hKu : ∀ u, u ≠ t → K'.cost u = K.cost u := by
        intro u hu
        unfold Book.cost
        rw [hbusy, put_ne _ _ hu]
      have hpu : ∀ u, u ≠ t → s'.pcs u = s.pcs u := by intro u hu; rw [hss, setPc_put, put_ne _ _ hu]
      have hpt : s'.pcs t = .rd c := by rw [hss, setPc_put, put_same]
      have hw : s'.w = s.w := by rw [hss]; rfl
      have hstep : sroundStep p (.call t c, r) = (p.1 + (Act.call t c).cost, max p.2 (p.1 + (Act.call t c).cost)) := rfl
      refine fin cs (by rw [hw]; exact hi.arena) (by rw [hw]; exact hi.log) ?_
      rw [hstep]
      refine ⟨hL.grown, ?_, by simp only; omega, ?_, ?_, ?_, ?_⟩
      · obtain ⟨d, Q, q1, q2, q3, q4⟩ := hL.paid
        have htQ : t ∉ Q := by rw [q3 t, hidle]; simp [Pc.pending]
        refine ⟨d, t :: Q, q1, List.nodup_cons.mpr ⟨htQ, q2⟩, ?_, ?_⟩
        · intro u
          by_cases hu : u = t
          · subst hu; rw [hpt]; simp [Pc.pending]
          · rw [hpu u hu, List.mem_cons, q3 u]; simp [hu]
        · rw [List.map_cons, List.sum_cons, hKt,
            List.map_congr_left (g := K.cost) (fun u hu => hKu u (fun he => htQ (he ▸ hu)))]
          simp only
          omega
      · intro u v hv
        by_cases hu : u = t
        · subst hu; rw [hpt] at hv; cases hv
        · rw [hpu u hu] at hv; exact hL.had u v hv
      · intro u j hv
        by_cases hu : u = t
        · subst hu; rw [hpt] at hv; cases hv
        · rw [hpu u hu] at hv
          rw [hw, show (Act.call t c).mark s n u = n u from put_ne _ _ hu]
          exact hL.room u j hv
      · intro u hv
        rw [hw]
        by_cases hu : u = t
        · subst hu; rw [show (Act.call u c).mark s n u = s.w.log.length from put_same _ _ _]; exact Nat.le_refl _
        · rw [hpu u hu] at hv
          rw [show (Act.call t c).mark s n u = n u from put_ne _ _ hu]
          exact hL.len u hv
      · intro R hR
        rw [hw] at hR
        have := hL.req R hR
        simp only
        omega
    have reset : ∀ cs', (∀ t, K.busy t = none) → a.resets = true → s'.pcs = s.pcs → AInv s'.w cs' s0.w.held → LogInv s'.w.log cs' →
        Grown cs' → Paid cs' 0 → (∀ R, (.refused R ∈ s'.w.log ∨ ∃ b, .alloc R b ∈ s'.w.log) →
          (.refused R ∈ s.w.log ∨ ∃ b, .alloc R b ∈ s.w.log)) →
        ∃ cs B, SInv s0 s' cs K' B ∧ LoneInv s0.minChunk s' cs K' (a.mark s n) (sroundStep p (a, r)) := by
      intro cs' hq' har hpcs h1 h2 h3 h4 h5
      refine fin cs' h1 h2 ?_
      have hidle : ∀ t, s'.pcs t = .idle := by intro t; rw [hpcs]; exact (hi.busy_none (hq' t)).1
      simp only [sroundStep, har, if_true]
      refine ⟨h3, ⟨0, [], h4, .nil, ?_, by simp⟩, Nat.zero_le _, ?_, ?_, ?_, ?_⟩
      · intro t; rw [hidle t]; simp [Pc.pending]
      · intro t v hv; rw [hidle t] at hv; cases hv
      · intro t v hv; rw [hidle t] at hv; cases hv
      · intro t hv; rw [hidle t] at hv; cases hv
      · intro R hR; exact hL.req R (h5 R hR)
    have frees : ∀ (l : List Chunk) (log : List BaseEvent) R, (.refused R ∈ (l.map Chunk.freeEvent).reverse ++ log ∨
        ∃ b, .alloc R b ∈ (l.map Chunk.freeEvent).reverse ++ log) → (.refused R ∈ log ∨ ∃ b, .alloc R b ∈ log) := by
      intro l log R hR
      have hno : ∀ e, e ∈ (l.map Chunk.freeEvent).reverse → ∃ c : Chunk, e = c.freeEvent := by
        intro e he
        rw [List.mem_reverse, List.mem_map] at he
        obtain ⟨c, _, rfl⟩ := he
        exact ⟨c, rfl⟩
      rcases hR with hR | ⟨b, hR⟩
      · rcases List.mem_append.mp hR with hR | hR
        · obtain ⟨c, hc⟩ := hno _ hR; cases hc
        · exact .inl hR
      · rcases List.mem_append.mp hR with hR | hR
        · obtain ⟨c, hc⟩ := hno _ hR; cases hc
        · exact .inr ⟨b, hR⟩
    have keep : (∀ t, K.busy t = none) → a.resets = true →
        s' = { s with w := resetWorld s.w cs, root := rootOf (resetChunks cs), seen := [] } →
        ∃ cs B, SInv s0 s' cs K' B ∧ LoneInv s0.minChunk s' cs K' (a.mark s n) (sroundStep p (a, r)) := by
      intro hq' har hss
      subst hss
      refine reset (resetChunks cs) hq' har rfl (reset_spec (m := 0) hi.arena).2 (resetWorld_log hi.arena hi.log) ?_ ?_ ?_
      · cases cs <;> trivial
      · cases cs with
        | nil => exact ⟨by simp [resetChunks], by simp [resetChunks]⟩
        | cons c t => exact ⟨by simp [resetChunks, Chunk.used, Chunk.rewind], by simp [resetChunks]⟩
      · intro R hR
        cases hcs : cs with
        | nil => rw [hcs] at hR; exact hR
        | cons c t =>
          rw [hcs] at hR
          have h1 := (freeAll_fields (rewound s.w c) t).2.2.2.2
          simp only [resetWorld] at hR
          rw [h1] at hR
          exact frees t _ R hR
    cases hl with
    | @allocate t l hb hv =>
      simp only [sstep] at hs
      rw [if_pos (hi.busy_none hb).1] at hs
      injection hs with hs; injection hs with hs; injection hs with hs1 hs2
      cases ha
      exact call t _ rfl hb (by simp only [put_same]) ⟨_, put_same _ _ _⟩ hs2.symm
    | @resize t b q old new hb ho hf hv =>
      simp only [sstep] at hs
      rw [if_pos (hi.busy_none hb).1] at hs
      injection hs with hs; injection hs with hs; injection hs with hs1 hs2
      cases ha
      exact call t _ rfl hb (by simp only [put_same]) ⟨_, put_same _ _ _⟩ hs2.symm
    | @deallocate t b q k hb ho hf =>
      simp only [sstep] at hs
      rw [if_pos (hi.busy_none hb).1] at hs
      injection hs with hs; injection hs with hs; injection hs with hs1 hs2
      cases ha
      exact call t _ rfl hb (by simp only [put_same]) ⟨_, put_same _ _ _⟩ hs2.symm
    | @go t ch =>
      have hres := hi.go_res hs
      obtain ⟨cs', h1, h2, h3⟩ := LoneInv.go hi hL hres (hq t ch rfl)
      refine fin cs' h1 h2 ?_
      rw [still _ rfl rfl]
      show LoneInv _ s' cs' K' n p
      cases ha with
      | inside => exact h3
      | @ret _ _ c ob r hb =>
        refine h3.book fun u hu => ?_
        have hut : u ≠ t := by
          rintro rfl
          cases hres with
          | retW => rw [setPc_put, put_same] at hu; cases hu
          | retR => rw [setPc_put, put_same] at hu; cases hu
        unfold Book.cost
        simp only [put_ne _ _ hut]
    | @write b x v ho hx =>
      simp only [sstep] at hs
      injection hs with hs; injection hs with hs; injection hs with hs1 hs2
      subst hs2
      obtain ⟨R, hR, hRB, hF⟩ := hi.fam.focus 0
      cases ha
      refine fin cs (hi.arena.setUsed (.inr (hR.byte (List.mem_append_left _ ho) hx))) hi.log ?_
      rw [still _ rfl rfl]
      exact ⟨hL.grown, hL.paid, hL.peak, hL.had, hL.room, hL.len, hL.req⟩
    | reset hq' =>
      simp only [sstep, resetStep] at hs
      rw [ebind_ok (by rw [hi.root]; exact arenaReset_keep hi.arena)] at hs
      injection hs with hs; injection hs with hs; injection hs with hs1 hs2
      exact keep hq' rfl hs2.symm
    | resetUnchecked hq' =>
      simp only [sstep, resetStep] at hs
      split at hs
      · rw [ebind_ok (by rw [hi.root]; exact arenaReset_keep hi.arena)] at hs
        injection hs with hs; injection hs with hs; injection hs with hs1 hs2
        exact keep hq' rfl hs2.symm
      · cases hs
    | resetFinal hq' =>
      simp only [sstep, resetStep] at hs
      rw [ebind_ok (by rw [hi.root]; exact arenaReset_all hi.arena)] at hs
      injection hs with hs; injection hs with hs; injection hs with hs1 hs2
      subst hs2
      have h1 := freeAll_fields s.w cs
      refine reset [] hq' rfl rfl (resetFinal_spec (m := 0) hi.arena).2 ?_ trivial ⟨by simp, by simp⟩ ?_
      · unfold LogInv
        simp only
        rw [h1.2.2.2.2]
        exact log_free (pre := []) hi.log.1 hi.log.2 hi.arena.ok (by simp)
      · intro R hR
        simp only at hR
        rw [h1.2.2.2.2] at hR
        exact frees cs _ R hR

/-- C65, the most that holds: if no thread makes a request of the underlying allocator when another made one since it was called, the
memory held is bounded as for `BlinkAlloc` (C64), whatever the interleaving, the answers of the underlying allocator and the number of
resets. Missing for the full statement: histories in which such requests do meet, where it is false (`C65_full_false`). -/
theorem C65_footprint_partial {s0 s : SS} {K : Book} {tr : List (Act × Option Resp)} {n : Nat → Nat} (h0 : SStart s0)
    (hr : LoneRun s0 tr s K n) : totalReq (openBlocks s.w.log) ≤ 5 * speakRound tr + s0.minChunk + 16520 := by
  obtain ⟨cs, B, hi, hL⟩ := hr.lone h0
  unfold speakRound
  obtain ⟨p, hp⟩ : ∃ p, tr.foldl sroundStep (0, 0) = p := ⟨_, rfl⟩
  rw [hp] at hL ⊢
  have hlog := hi.log.1
  obtain ⟨d, Q, h1, _, _, h2⟩ := hL.paid
  have h3 := hL.peak
  cases cs with
  | nil => rw [hlog]; simp [totalReq]
  | cons c t =>
    have hb : c.blk ∈ openBlocks s.w.log := by rw [hlog]; exact List.mem_cons_self
    have h4 := hL.req ⟨c.req, 8⟩ (.inr ⟨_, open_alloc hb⟩)
    have h5 := h1.tail (fun d hd => hi.arena.ok d (List.mem_cons_of_mem _ hd))
    have h6 : Grown t := by
      cases t with
      | nil => trivial
      | cons d t => exact hL.grown.2
    have h7 := h6.reqs (fun d hd => hi.arena.ok d (List.mem_cons_of_mem _ hd))
    have h8 : totalReq ((c :: t).map Chunk.blk) = c.req + (t.map Chunk.req).sum := by
      simp only [totalReq, List.map_cons, List.sum_cons, List.map_map, Chunk.blk, Function.comp_def]
    rw [hlog, h8]
    simp only at h4
    omega

/-- C65: in the same histories every single request, granted or refused, is bounded as for `BlinkAlloc`. -/
theorem C65_request_partial {s0 s : SS} {K : Book} {tr : List (Act × Option Resp)} {n : Nat → Nat} (h0 : SStart s0)
    (hr : LoneRun s0 tr s K n) {R : Layout} (h : .refused R ∈ s.w.log ∨ ∃ b, .alloc R b ∈ s.w.log) :
    R.size ≤ 2 * speakRound tr + s0.minChunk + 16488 := by
  obtain ⟨cs, B, hi, hL⟩ := hr.lone h0
  exact hL.req R h

theorem speakRound_le (tr : List (Act × Option Resp)) : speakRound tr ≤ scostOf tr := by
  suffices h : ∀ (p : Nat × Nat) (k : Nat), p.1 ≤ k → p.2 ≤ k → (tr.foldl sroundStep p).2 ≤ k + scostOf tr by
    have := h (0, 0) 0 (Nat.le_refl _) (Nat.le_refl _)
    unfold speakRound
    omega
  induction tr with
  | nil => intro p k h1 h2; simp only [List.foldl_nil]; omega
  | cons x t ih =>
    intro p k h1 h2
    have e : scostOf (x :: t) = x.1.cost + scostOf t := by simp only [scostOf, List.map_cons, List.sum_cons]
    rw [List.foldl_cons, e]
    have := ih (sroundStep p x) (k + x.1.cost) (by unfold sroundStep; split <;> simp only <;> omega)
      (by unfold sroundStep; split <;> simp only <;> omega)
    omega

/-- C65: so in these histories the bound of the full statement holds. -/
theorem C65_bound_partial {s0 s : SS} {K : Book} {tr : List (Act × Option Resp)} {n : Nat → Nat} (h0 : SStart s0)
    (hr : LoneRun s0 tr s K n) : totalReq (openBlocks s.w.log) ≤ 7 * scostOf tr + 2 * s0.minChunk + 16618 := by
  have h1 := C65_footprint_partial h0 hr
  have h2 := speakRound_le tr
  omega

/-- C65: and the number of chunks held is logarithmic in the work. -/
theorem C65_chunks_partial {s0 s : SS} {K : Book} {tr : List (Act × Option Resp)} {n : Nat → Nat} (h0 : SStart s0)
    (hr : LoneRun s0 tr s K n) : 64 * fib (openBlocks s.w.log).length ≤ 2 * speakRound tr + 64 := by
  obtain ⟨cs, B, hi, hL⟩ := hr.lone h0
  unfold speakRound
  obtain ⟨p, hp⟩ : ∃ p, tr.foldl sroundStep (0, 0) = p := ⟨_, rfl⟩
  rw [hp] at hL ⊢
  obtain ⟨d, Q, h1, _, _, h2⟩ := hL.paid
  have h3 := hL.peak
  rw [hi.log.1, List.length_map]
  cases cs with
  | nil => simp [Blink.fib]
  | cons c t =>
    have h5 := h1.tail (fun d hd => hi.arena.ok d (List.mem_cons_of_mem _ hd))
    have h6 : Grown t := by
      cases t with
      | nil => trivial
      | cons d t => exact hL.grown.2
    have h7 := h6.fib
    rw [List.length_cons]
    omega

/-- C61, in the same histories: when a thread makes a request, the current chunk, if there is one, has no room for what its call asks
for. Missing for the full statement: requests made after another thread's, where it is false (`C61_full_false`). -/
theorem C61_lone_partial {s0 s s' : SS} {K : Book} {tr : List (Act × Option Resp)} {n : Nat → Nat} (h0 : SStart s0)
    (hr : LoneRun s0 tr s K n) {t : Nat} {ch : Choice} {r : Option Resp} {c : Call} {ob : Option Owned} {l : Layout}
    (hb : K.busy t = some (c, ob)) (hw : c.wants = some l) (hs : sstep s (.go t ch) = .ok (some (r, s')))
    (hlog : s'.w.log ≠ s.w.log) (hq : s.w.log.length = n t) : s.NoRoom l := by
  obtain ⟨cs, B, hi, hL⟩ := hr.lone h0
  have hpc : ∃ j, s.pcs t = .slow j := by
    have hg := hi.go_res hs
    cases hg with
    | @slowErr j _ _ hpc => exact ⟨j, hpc⟩
    | @slowOk j _ _ _ hpc => exact ⟨j, hpc⟩
    | _ => exact absurd rfl hlog
  obtain ⟨j, hpc⟩ := hpc
  obtain ⟨hv, hnf⟩ := hL.room t j (by rw [hpc]; rfl) hq
  obtain ⟨Bt, hj⟩ := hi.jobOK (j := j) (.inr (.inr (.inr (.inr hpc))))
  have hlay : j.layout = l := by
    rw [hb] at hj
    cases hj with
    | alloc => injection hw
    | resize => injection hw
  subst hlay
  intro pos e hroom q r1 r2 r3
  rw [hi.room] at hroom
  cases cs with
  | nil => cases hroom
  | cons c1 tl =>
    simp only [List.head?_cons, Option.map_some, Option.some.injEq, Prod.mk.injEq] at hroom
    obtain ⟨rfl, rfl⟩ := hroom
    apply Decidable.byContradiction
    intro hc
    have hb' := hnf c1 tl rfl
    rw [bump_of_fit hv r1 r2 r3 (by omega)] at hb'
    cases hb'

/-! ### Examples -/

/-- The condition of `LoneRun` on a step. -/
def lone (s : SS) (n : Nat → Nat) (s' : SS) : Act → Bool
  | .go t _ => decide (s'.w.log = s.w.log ∨ s.w.log.length = n t)
  | _ => true

/-- Run acts, checking the condition of `LoneRun`. -/
def lexecAll (s : SS) (K : Book) (n : Nat → Nat) : List Act → Option (List (Option Resp) × SS × Book × (Nat → Nat))
  | [] => some ([], s, K, n)
  | a :: as =>
    match sexec1 s K a with
    | none => none
    | some (r, s', K') =>
      if lone s n s' a then
        match lexecAll s' K' (a.mark s n) as with
        | none => none
        | some (rs, x) => some (r :: rs, x)
      else none

theorem lexecAll_sound {s0 tr s K n as rs s' K' n'} (h : LoneRun s0 tr s K n) (he : lexecAll s K n as = some (rs, s', K', n')) :
    LoneRun s0 (tr ++ as.zip rs) s' K' n' := by
  induction as generalizing s K n tr rs with
  | nil => cases he; simpa using h
  | cons a as ih =>
    simp only [lexecAll] at he
    split at he
    · cases he
    rename_i r s1 K1 h1
    split at he
    case isFalse => cases he
    rename_i hc
    split at he
    · cases he
    rename_i rs1 x h2
    injection he with he
    injection he with e1 e2
    subst e1 e2
    obtain ⟨a1, a2, a3⟩ := sexec1_sound h1
    have := ih (h.snoc a1 a2 a3 (by
      rintro t ch rfl hne
      simp only [lone, decide_eq_true_eq] at hc
      exact hc.resolve_left hne)) h2
    rw [List.zip_cons_cons, ← List.singleton_append, ← List.append_assoc]
    exact this

/-- Thread 1 obtains a chunk; threads 2 and 3 are called and both read the same cursor; thread 2 takes its space first; thread 3
finds no room and obtains a second chunk while thread 4 has been called and waits for the lock; thread 4 allocates from the new chunk. -/
def loneActs : List Act :=
  [.call 1 (.allocate ⟨8, 8⟩)] ++ goes 1 5 ++
  [.call 2 (.allocate ⟨100, 4⟩), .call 3 (.allocate ⟨400, 8⟩)] ++ goes 2 2 ++ goes 3 2 ++ goes 2 2 ++ goes 3 2 ++
  [.call 4 (.allocate ⟨16, 16⟩)] ++ goes 3 4 ++ goes 4 3

/-- Non-vacuity of C65's positive theorems: `loneActs` meets the hypothesis, with two chunks obtained. -/
example : ∃ s0 s K tr n, SStart s0 ∧ LoneRun s0 tr s K n ∧ tr.length = 24 ∧ grants s.w.log = 2 ∧ 0 < totalReq (openBlocks s.w.log) := by
  have hx : (lexecAll (sdemoStart [512, 1024] 256) Book.empty (fun _ => 0) loneActs).any
      (fun x => decide ((loneActs.zip x.1).length = 24) && decide (grants x.2.1.w.log = 2) &&
        decide (0 < totalReq (openBlocks x.2.1.w.log))) = true := by decide +kernel
  cases he : lexecAll (sdemoStart [512, 1024] 256) Book.empty (fun _ => 0) loneActs with
  | none => rw [he] at hx; cases hx
  | some x =>
    obtain ⟨rs, s, K, n⟩ := x
    rw [he] at hx
    simp only [Option.any_some, Bool.and_eq_true, decide_eq_true_eq] at hx
    exact ⟨_, s, K, _, n, sdemoStart_start _ 256 (by decide), lexecAll_sound .nil he, hx.1.1, hx.1.2, hx.2⟩

/-- Non-vacuity of `C61_lone_partial`: thread 3 of `loneActs` about to obtain a second chunk. -/
example : ∃ s0 s K tr n s', SStart s0 ∧ LoneRun s0 tr s K n ∧ K.busy 3 = some (.allocate ⟨400, 8⟩, none) ∧
    sstep s (.go 3 fresh) = .ok (some (none, s')) ∧ s'.w.log ≠ s.w.log ∧ s.w.log.length = n 3 ∧ (openBlocks s.w.log).length = 1 := by
  have hx : (lexecAll (sdemoStart [512, 1024] 256) Book.empty (fun _ => 0) (loneActs.take 19)).any
      (fun x => decide (x.2.2.1.busy 3 = some (.allocate ⟨400, 8⟩, none)) && decide (x.2.1.w.log.length = x.2.2.2 3) &&
        decide ((openBlocks x.2.1.w.log).length = 1) &&
        (match sstep x.2.1 (.go 3 fresh) with
         | .ok (some (none, s')) => decide (s'.w.log ≠ x.2.1.w.log)
         | _ => false)) = true := by decide +kernel
  cases he : lexecAll (sdemoStart [512, 1024] 256) Book.empty (fun _ => 0) (loneActs.take 19) with
  | none => rw [he] at hx; cases hx
  | some x =>
    obtain ⟨rs, s, K, n⟩ := x
    rw [he] at hx
    simp only [Option.any_some, Bool.and_eq_true, decide_eq_true_eq] at hx
    obtain ⟨⟨⟨h1, h2⟩, h3⟩, h4⟩ := hx
    split at h4
    · rename_i s' hs
      rw [decide_eq_true_eq] at h4
      exact ⟨_, s, K, _, n, s', sdemoStart_start _ 256 (by decide), lexecAll_sound .nil he, h1, hs, h4, h2, h3⟩
    · cases h4

end Blink
