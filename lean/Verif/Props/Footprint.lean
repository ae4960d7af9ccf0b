import Verif.Props.Growth
import Verif.Props.SyncMore
/-
  How much memory is asked for and held: C64 (`BlinkAlloc`), C65 (`SyncBlinkAlloc`).
-/
namespace Blink

theorem open_alloc {log : List BaseEvent} {b : BaseBlk} (h : b ∈ openBlocks log) : .alloc b.req ⟨b.addr, b.len⟩ ∈ log := by
  induction log with
  | nil => cases h
  | cons e t ih =>
    cases e with
    | alloc l s =>
      simp only [openBlocks] at h
      rcases List.mem_cons.mp h with rfl | h
      · exact List.mem_cons_self
      · exact List.mem_cons_of_mem _ (ih h)
    | refused l => exact List.mem_cons_of_mem _ (ih h)
    | dealloc a l => exact List.mem_cons_of_mem _ (ih (List.mem_of_mem_eraseP h))

theorem sum_cap {t : List Chunk} (hok : ∀ c ∈ t, ChunkOK c) :
    (t.map Chunk.cap).sum = (t.map Chunk.used).sum + (t.map Chunk.left).sum := by
  induction t with
  | nil => simp
  | cons d t ih =>
    have := ih (fun c hc => hok c (List.mem_cons_of_mem _ hc))
    have hd := hok d List.mem_cons_self
    have := hd.lo; have := hd.hi
    simp only [List.map_cons, List.sum_cons, Chunk.cap, Chunk.used, Chunk.left] at *
    omega

/-- All chunks but the newest together have at most twice the capacity that was paid for. -/
theorem Paid.tail {c : Chunk} {t : List Chunk} {n : Nat} (hok : ∀ d ∈ t, ChunkOK d) (h : Paid (c :: t) n) :
    (t.map Chunk.cap).sum ≤ 2 * n := by
  have := sum_cap hok
  obtain ⟨h1, h2⟩ := h
  simp only [List.map_cons, List.sum_cons, List.tail_cons] at *
  omega

theorem Grown.reqs {t : List Chunk} (hok : ∀ d ∈ t, ChunkOK d) (hg : Grown t) :
    2 * (t.map Chunk.req).sum ≤ 3 * (t.map Chunk.cap).sum + 64 := by
  match t, hg with
  | [], _ => simp
  | [c], _ =>
    have h := hok c List.mem_cons_self
    have := h.req; have := h.lo; have := h.hi
    simp only [List.map_cons, List.sum_cons, List.map_nil, List.sum_nil, Chunk.cap]
    omega
  | c :: d :: t, hg =>
    have ih := Grown.reqs (fun e he => hok e (List.mem_cons_of_mem _ he)) hg.2
    have h := hok c List.mem_cons_self
    have := h.req; have := h.lo; have := h.hi
    have := hg.1
    simp only [List.map_cons, List.sum_cons, Chunk.cap] at *
    omega

/-- The invariant behind C64. -/
def Foot (m : Nat) (w : World) (cs : List Chunk) (tr : List (Op × Resp)) : Prop :=
  let p := tr.foldl roundStep (0, 0)
  Grown cs ∧ Paid cs p.1 ∧ p.1 ≤ p.2 ∧
  ∀ R, (R ∈ (w.log.filterMap fun e => match e with
    | .alloc l _ => some l.size
    | .refused l => some l.size
    | .dealloc _ _ => none)) → R ≤ 2 * p.2 + m + 16488

theorem Foot.of_run {s0 s : St} {L : List Owned} {tr : List (Op × Resp)} (h0 : Start s0) (hr : Run s0 [] tr s L) :
    ∃ cs, Inv s0 s cs L ∧ Foot s0.a.minChunk s.w cs tr := by
  refine hr.inv_ext h0 (fun w cs tr => Foot s0.a.minChunk w cs tr) ?_ ?_
  · refine ⟨trivial, ⟨by simp, by simp⟩, Nat.le_refl _, ?_⟩
    intro R hR
    rw [h0.log] at hR
    cases hR
  · intro tr s L cs op r s' L' cs' _ hI hleg _ hres hI' ih
    obtain ⟨i1, i2, i3, i4⟩ := ih
    unfold Foot
    simp only [List.foldl_append, List.foldl_cons, List.foldl_nil]
    obtain ⟨p, hp⟩ : ∃ p, tr.foldl roundStep (0, 0) = p := ⟨_, rfl⟩
    rw [hp] at i2 i3 i4 ⊢
    have hpaid : Paid cs' (roundStep p (op, r)).1 := by
      by_cases hn : op.NoReset
      · have := hres.paid hI.arena hleg hn i2
        have e : (roundStep p (op, r)).1 = p.1 + op.cost := by
          cases op <;> first | rfl | exact absurd rfl hn.1 | exact absurd rfl hn.2
        rw [e]; exact this
      · cases op with
        | reset =>
          obtain ⟨_, _, rfl⟩ := hres
          show Paid _ 0
          cases cs with
          | nil => exact ⟨by simp [resetChunks], by simp [resetChunks]⟩
          | cons c t => exact ⟨by simp [resetChunks, Chunk.used, Chunk.rewind], by simp [resetChunks]⟩
        | resetFinal =>
          obtain ⟨_, _, rfl⟩ := hres
          exact ⟨by simp, by simp⟩
        | _ => exact absurd ⟨by simp, by simp⟩ hn
    have hle : p.2 ≤ (roundStep p (op, r)).2 ∧ (roundStep p (op, r)).1 ≤ (roundStep p (op, r)).2 := by
      cases op <;> simp only [roundStep] <;> omega
    refine ⟨hres.grown hI.arena i1, hpaid, hle.2, ?_⟩
    intro R hR
    rw [List.mem_filterMap] at hR
    obtain ⟨ev, hev, hR⟩ := hR
    rcases hres.events hev with h1 | ⟨_, a, l, h1⟩ | ⟨l, R', hl, hq, h1⟩
    · have := i4 R (List.mem_filterMap.mpr ⟨ev, h1, hR⟩)
      omega
    · subst h1; cases hR
    · have hRR : R = R' := by
        rcases h1 with h1 | ⟨b, h1⟩ <;> subst h1 <;> injection hR with hR <;> exact hR.symm
      subst hRR
      have hcost : l.size + l.align - 1 = op.cost ∧ l.Valid ∧ op.NoReset := by
        cases hleg <;> first
          | cases hl; done
          | (injection hl with hl; subst hl; exact ⟨rfl, ‹_›, by simp, by simp⟩)
      obtain ⟨hc, hv, hn⟩ := hcost
      have hround : (roundStep p (op, r)).2 = max p.2 (p.1 + op.cost) := by
        cases op <;> first | rfl | exact absurd rfl hn.1 | exact absurd rfl hn.2
      have hcum : need (rootCum cs) s.a.minChunk l ≤ s.a.minChunk + 2 * p.1 + max l.size 64 + l.align + 32 := by
        cases cs with
        | nil => simp only [need, rootCum, List.head?_nil, Option.map_none]; split <;> omega
        | cons c t =>
          have h2 := hI.arena.cum.1
          have h3 := i2.tail (fun d hd => hI.arena.ok d (List.mem_cons_of_mem _ hd))
          simp only [need, rootCum, List.head?_cons, Option.map_some]
          split <;> omega
      have h4 := (req_tight hq).1
      have hmin : s.a.minChunk = s0.a.minChunk := hI.min
      obtain ⟨k, _, hk, hpos, _⟩ := hv.facts
      omega

/-- C64: whatever the underlying allocator answers and however many resets there are, the total size asked for of all the memory
held at any moment is at most a linear function of the largest total cost (sizes plus padding) between two resets. -/
theorem C64_footprint {s0 s : St} {L : List Owned} {tr : List (Op × Resp)} (h0 : Start s0) (hr : Run s0 [] tr s L) :
    totalReq (openBlocks s.w.log) ≤ 5 * peakRound tr + s0.a.minChunk + 16520 := by
  obtain ⟨cs, hI, i1, i2, i3, i4⟩ := Foot.of_run h0 hr
  have hlog := hI.log.1
  unfold peakRound
  obtain ⟨p, hp⟩ : ∃ p, tr.foldl roundStep (0, 0) = p := ⟨_, rfl⟩
  rw [hp] at i2 i3 i4 ⊢
  cases cs with
  | nil => rw [hlog]; simp [totalReq]
  | cons c t =>
    have hb : c.blk ∈ openBlocks s.w.log := by rw [hlog]; exact List.mem_cons_self
    have h1 := i4 c.req (List.mem_filterMap.mpr ⟨_, open_alloc hb, rfl⟩)
    have h2 := i2.tail (fun d hd => hI.arena.ok d (List.mem_cons_of_mem _ hd))
    have h3 : Grown t := by
      cases t with
      | nil => trivial
      | cons d t => exact i1.2
    have h4 := h3.reqs (fun d hd => hI.arena.ok d (List.mem_cons_of_mem _ hd))
    have h5 : totalReq ((c :: t).map Chunk.blk) = c.req + (t.map Chunk.req).sum := by
      simp only [totalReq, List.map_cons, List.sum_cons, List.map_map, Chunk.blk, Function.comp_def]
    rw [hlog, h5]
    omega

/-- C64: no single request to the underlying allocator, granted or refused, is larger than a linear function of the largest cost
between two resets. -/
theorem C64_each_request {s0 s : St} {L : List Owned} {tr : List (Op × Resp)} (h0 : Start s0) (hr : Run s0 [] tr s L) {R : Layout}
    (h : .refused R ∈ s.w.log ∨ ∃ b, .alloc R b ∈ s.w.log) : R.size ≤ 2 * peakRound tr + s0.a.minChunk + 16488 := by
  obtain ⟨cs, hI, i1, i2, i3, i4⟩ := Foot.of_run h0 hr
  refine i4 R.size ?_
  rcases h with h | ⟨b, h⟩ <;> exact List.mem_filterMap.mpr ⟨_, h, rfl⟩

/-- Non-vacuity of C64: three rounds of the work of `C14_full_false` with a reset after each; at least two chunks are obtained. -/
example : ∃ s0 s L tr, Start s0 ∧ Run s0 [] tr s L ∧ tr.length = 9 ∧ peakRound tr ≤ 1024 ∧ 2 ≤ grants s.w.log ∧
    0 < totalReq (openBlocks s.w.log) := by
  have hx : (execAll (demoStart [512, 1024, 2048, 4096, 4096, 8192] 256) [] (rounds pingWork 3)).any
      (fun x => decide (2 ≤ grants x.2.1.w.log) && ((rounds pingWork 3).zip x.1).length == 9 &&
        decide (0 < totalReq (openBlocks x.2.1.w.log)) &&
        decide (peakRound ((rounds pingWork 3).zip x.1) ≤ 1024)) = true := by decide +kernel
  cases he : execAll (demoStart [512, 1024, 2048, 4096, 4096, 8192] 256) [] (rounds pingWork 3) with
  | none => rw [he] at hx; cases hx
  | some x =>
    obtain ⟨rs, s, L⟩ := x
    rw [he] at hx
    simp only [Option.any_some, Bool.and_eq_true, beq_iff_eq, decide_eq_true_eq] at hx
    exact ⟨_, s, L, _, demoStart_start _ 256 (by decide), execAll_sound he, hx.1.1.2, hx.2, hx.1.1.1, hx.1.2⟩

/-! ### C65 -/

/-- C65 in full: the bound of C64 holds for threads sharing a `SyncBlinkAlloc` too, even with the cost of the whole history in place
of the largest cost between two resets. -/
def C65_full : Prop :=
  ∀ (s0 s : SS) (K : Book) (tr : List (Act × Option Resp)), SStart s0 → SRun s0 Book.empty tr s K →
    totalReq (openBlocks s.w.log) ≤ 7 * scostOf tr + 2 * s0.minChunk + 16618

/-- Sizes of the blocks the underlying allocator hands out in `raceStart`: exactly what is requested. -/
def raceSizes : List Nat :=
  [512, 512, 1024, 2048, 2048, 4096, 8192, 16384, 32768, 49152, 81920, 131072, 212992, 344064, 557056, 901120, 1458176, 2359296,
   3817472, 6176768, 9994240, 16171008, 26165248, 42336256, 68501504, 110837760, 179339264, 290177024, 469516288, 759693312]

/-- A fresh allocator; the blocks of `raceSizes` are far apart. -/
def raceStart : SS :=
  { sdemoStart [] 256 with
      w := { demoWorld [] with oracle := fun n => (raceSizes[n]?).map fun k => ⟨1125899906842624 * (n + 1), k⟩ } }

theorem raceStart_start : SStart raceStart where
  root := rfl
  readers := rfl
  writer := rfl
  seen := rfl
  pcs := fun _ => rfl
  world := ⟨by simp [raceStart, demoWorld], by simp [raceStart, demoWorld], by simp [raceStart, demoWorld]⟩
  dbg := fun _ => ⟨by decide, by decide, Nat.le_refl _⟩
  log := rfl

/-- Threads 1 to 30 ask for 8 bytes each; all see that there is no chunk before the first of them obtains one. -/
def raceActs : List Act :=
  let ts := (List.range 30).map (· + 1)
  ts.map (fun t => .call t (.allocate ⟨8, 8⟩)) ++ ts.flatMap (fun t => goes t 2) ++ ts.flatMap (fun t => goes t 3)

/-- C65: thirty threads that ask for 8 bytes each can make the allocator ask for almost two gigabytes. -/
theorem C65_race : ∃ s K tr, SRun raceStart Book.empty tr s K ∧ scostOf tr = 450 ∧
    totalReq (openBlocks s.w.log) = 1988888576 := by
  have hx : (sexecAll raceStart Book.empty raceActs).any (fun x => decide (totalReq (openBlocks x.2.1.w.log) = 1988888576) &&
      decide (scostOf (raceActs.zip x.1) = 450)) = true := by decide +kernel
  cases he : sexecAll raceStart Book.empty raceActs with
  | none => rw [he] at hx; cases hx
  | some x =>
    obtain ⟨rs, s, K⟩ := x
    rw [he] at hx
    simp only [Option.any_some, Bool.and_eq_true, decide_eq_true_eq] at hx
    exact ⟨s, K, _, sexecAll_sound he, hx.2, hx.1⟩

/-- C65 is false: a thread that waited for the write lock obtains another chunk without looking at the one that was made in the
meantime, and each new chunk is at least as large as all but the newest together. -/
theorem C65_full_false : ¬ C65_full := by
  intro h
  obtain ⟨s, K, tr, hr, hc, ht⟩ := C65_race
  have := h _ s K tr raceStart_start hr
  rw [hc, ht] at this
  exact absurd this (by decide)

/-- C65, what does hold: a request made for a call is at most a linear function of the minimal chunk size, the memory held at that
moment and the size and alignment of the call. -/
theorem C65_each_request_partial {s0 s s' : SS} {K : Book} (h : SReach s0 s K) {t : Nat} {ch : Choice} {r : Option Resp} {c : Call}
    {ob : Option Owned} {l R : Layout} (hb : K.busy t = some (c, ob)) (hw : c.wants = some l)
    (hs : sstep s (.go t ch) = .ok (some (r, s')))
    (hev : s'.w.log = .refused R :: s.w.log ∨ ∃ b, s'.w.log = .alloc R b :: s.w.log) :
    R.size < max s0.minChunk (totalLen (openBlocks s.w.log)) + max l.size 64 + l.align + 32 + 16392 := by
  obtain ⟨cs, B, hi⟩ := h.inv
  have hne : s'.w.log ≠ s.w.log := by
    intro he
    rcases hev with h | ⟨b, h⟩ <;> (rw [he] at h; exact List.ne_cons_self h)
  have key : ∀ j o w' cs', s.pcs t = .slow j → allocSlow s.root s.minChunk j.layout s.w = .ok ((o, rootOf cs'), w') →
      (w'.log = .refused R :: s.w.log ∨ ∃ b, w'.log = .alloc R b :: s.w.log) →
      R.size < max s0.minChunk (totalLen (openBlocks s.w.log)) + max l.size 64 + l.align + 32 + 16392 := by
    intro j o w' cs' hpc he hev
    have ht := hi.thr t
    obtain ⟨Bt, hB⟩ : ∃ Bt, B t = Bt := ⟨_, rfl⟩
    rw [hb, hB, hpc] at ht
    have hlay : j.layout = l ∧ l.Valid := by
      cases ht with
      | slow hj =>
        have hv := hj.valid
        cases hj with
        | alloc => injection hw with hw; subst hw; exact ⟨rfl, hv⟩
        | resize => injection hw with hw; subst hw; exact ⟨rfl, hv⟩
    obtain ⟨rfl, hv⟩ := hlay
    have hn := need_le (m := s.minChunk) (l := j.layout) hi.arena hi.log
    rw [hi.min] at hn
    rcases allocSlow_spec hi.arena hv hi.dbg with ⟨e', _, he'⟩ | ⟨r, w'', cs'', he', hsl, _⟩
    · rw [← hi.root, he] at he'; cases he'
    · rw [← hi.root, he] at he'
      injection he' with he'
      injection he' with he1 he2
      injection he1 with he1 he3
      subst he1 he2
      rw [hi.min] at hsl
      cases hsl with
      | tooBig hreq => rcases hev with h | ⟨b, h⟩ <;> exact (List.ne_cons_self h).elim
      | refused R' hreq ho =>
        have := (req_tight hreq).1
        rcases hev with h | ⟨b, h⟩
        · injection h with h _; injection h with h; subst h; dsimp only; omega
        · injection h with h _; cases h
      | ok R' sl m' hreq ho hf hbm hm hu =>
        have := (req_tight hreq).1
        rcases hev with h | ⟨b, h⟩
        · injection h with h _; cases h
        · injection h with h _; injection h with h _; subst h; dsimp only; omega
  have hg := hi.go_res hs
  cases hg with
  | slowErr hpc he => exact key _ _ _ _ hpc he hev
  | slowOk hpc he => exact key _ _ _ _ hpc he hev
  | _ => exact absurd rfl hne

/-- Non-vacuity of `C65_each_request_partial`: the second thread asks for a chunk while one of 512 bytes is held. -/
example : ∃ s0 s K s' R b, SReach s0 s K ∧ K.busy 2 = some (.allocate ⟨900, 8⟩, none) ∧
    sstep s (.go 2 fresh) = .ok (some (none, s')) ∧ s'.w.log = .alloc R b :: s.w.log ∧ totalLen (openBlocks s.w.log) = 512 := by
  obtain ⟨s, K, hr, hf⟩ := of_sdemoAt (sizes := [512, 4096]) (m := 256)
    (as := [.call 1 (.allocate ⟨8, 8⟩)] ++ goes 1 5 ++ [.call 2 (.allocate ⟨900, 8⟩)] ++ goes 2 5)
    (f := fun s K => decide (K.busy 2 = some (.allocate ⟨900, 8⟩, none)) && decide (totalLen (openBlocks s.w.log) = 512) &&
      (match sstep s (.go 2 fresh) with
       | .ok (some (none, s')) => decide (s'.w.log.drop 1 = s.w.log) && decide (s'.w.log.head?.any fun e => match e with
           | .alloc _ _ => true
           | _ => false)
       | _ => false)) (by decide) (by decide +kernel)
  simp only [Bool.and_eq_true, decide_eq_true_eq] at hf
  obtain ⟨⟨h1, h2⟩, h3⟩ := hf
  split at h3
  · rename_i s' hs
    simp only [Bool.and_eq_true, decide_eq_true_eq] at h3
    obtain ⟨h3, h4⟩ := h3
    cases hlog : s'.w.log with
    | nil => rw [hlog] at h4; cases h4
    | cons e rest =>
      rw [hlog] at h3 h4
      simp only [List.drop_succ_cons, List.drop_zero] at h3
      subst h3
      cases e with
      | alloc R b => exact ⟨_, s, K, s', R, b, hr, h1, hs, hlog, h2⟩
      | _ => cases h4
  · cases h3

end Blink
