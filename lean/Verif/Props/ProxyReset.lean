import Verif.Props.ProxyProgress
/-
  C73: `reset_unchecked` of a proxy gives all its chunks but the newest back to the shared allocator: exactly those, one call of
  `deallocate` each, newest to oldest, each with its address and length; the chunks are those recorded in the chunk headers when
  the call started, whatever happens in the meantime. The chunks recorded are exactly the blocks the proxy was given by the shared
  allocator and has not left since.
-/
namespace Blink

/-- The chunks recorded in memory from chunk `c` on, newest first: address and length. A header holds the end of the chunk in
its second word and the address of the next older chunk, 0 if there is none, in its third. -/
inductive Older (m : Nat → Byte) : Nat → List (Nat × Nat) → Prop
  | nil : Older m 0 []
  | cons {c e prev L} (hc : c ≠ 0) (he : decodeWord m (c + 8) = some e) (hp : decodeWord m (c + 16) = some prev) (h : Older m prev L) :
      Older m c ((c, e - c) :: L)

theorem Older.unique {m c L L'} (h : Older m c L) (h' : Older m c L') : L = L' := by
  induction h generalizing L' with
  | nil => cases h' with
    | nil => rfl
    | cons hc => exact absurd rfl hc
  | cons hc he hp h ih => cases h' with
    | nil => exact absurd rfl hc
    | cons _ he' hp' h' =>
      rw [he] at he'; rw [hp] at hp'
      injection he' with he'; injection hp' with hp'
      subst he'; subst hp'
      rw [ih h']

/-- Proxy `i` is inside `reset_unchecked` and has yet to ask the shared allocator to take back the chunks `L`, after the one it
is giving back now. -/
def PS.ToGive (ps : PS) (i : Nat) (L : List (Nat × Nat)) : Prop :=
  ∃ p next, ps.px i = some p ∧ p.pc = .chain next ∧ Older ps.s.w.mem next L

/-- What proxy `i` does in a step with outcome `r` and new state `ps'` if it has the chunks `L` to give back: it returns if
there are none, else it calls `deallocate` of the shared allocator for the first. -/
def PS.Gives (ps' : PS) (i : Nat) (r : Option Resp) : List (Nat × Nat) → Prop
  | [] => r = some .unit ∧ ps'.s.pcs i = .idle ∧ ∃ p, ps'.px i = some p ∧ p.pc = .idle
  | (a, n) :: L => r = none ∧ ps'.s.pcs i = .rd (.deallocate a n) ∧ ps'.ToGive i L

theorem Rep.older {m : Nat → Byte} {P : List Chunk} (h : Rep m P) (hok : ∀ c ∈ P, ChunkOK c) :
    Older m (rootOf P) (P.map fun c => (c.start, c.end_ - c.start)) := by
  induction P with
  | nil => exact .nil
  | cons c P ih =>
    have hne : rootOf (c :: P) ≠ 0 := by rw [Ne, rootOf_eq_zero hok]; simp
    exact .cons hne (decodeWord_of h.1.2.1) (decodeWord_of h.1.2.2.1) (ih h.2 fun d hd => hok d (List.mem_cons_of_mem _ hd))

theorem freeNext_gives {ps ps' : PS} {i : Nat} {a : BA} {w : World} {P : List Chunk} {r} (hv : VInv w P) (ha : Acc w P)
    (hidle : ps.s.pcs i = .idle) (he : ps.freeNext i a (rootOf P) w = .ok (some (r, ps'))) :
    ps'.Gives i r (P.map fun c => (c.start, c.end_ - c.start)) := by
  rw [freeNext_eq hv ha] at he
  cases P with
  | nil =>
    injection he with he; injection he with he; injection he with h1 h2
    subst h1; subst h2
    exact ⟨rfl, hidle, _, PS.setPx_same _ _ _, rfl⟩
  | cons c t =>
    simp only [PS.ask, if_pos hidle] at he
    injection he with he; injection he with he; injection he with h1 h2
    subst h1; subst h2
    refine ⟨rfl, SS.setPc_same _ _ _, _, _, PS.setPx_same _ _ _, rfl, ?_⟩
    exact Rep.older (m := w.mem) hv.rep.2 fun d hd => hv.ok d (List.mem_cons_of_mem _ hd)

/-- What is known of a proxy inside `reset_unchecked`. -/
theorem PInv.toGive {p0 ps K KS cs pend} (h : PInv p0 ps K KS cs pend) {i : Nat} {L} (hw : ps.ToGive i L) :
    ∃ c m, ps.px i = some ⟨⟨c, m⟩, .chain (rootOf (pend i))⟩ ∧ VInv ps.s.w (pend i) ∧ L = (pend i).map (fun c => (c.start, c.end_ - c.start)) ∧
      K.pbusy i = some (.resetUnchecked, none) ∧ K.live i = true := by
  obtain ⟨p, next, h1, h2, h3⟩ := hw
  have hx := h.px i
  rw [h1] at hx
  generalize K.pbusy i = pb at hx ⊢
  generalize K.live i = lv at hx ⊢
  generalize K.direct.busy i = db at hx
  generalize K.led i = ld at hx
  generalize KS.busy i = kb at hx
  generalize cs i = csi at hx
  generalize hpd : pend i = pd at hx ⊢
  cases hx with
  | idle => cases h2
  | alloc => cases h2
  | resize => cases h2
  | @chain c m _ p n b hv hP hm hcur =>
    injection h2 with h2
    subst h2
    exact ⟨_, _, h1, hP, h3.unique (Rep.older (m := ps.s.w.mem) hP.rep hP.ok), rfl, rfl⟩

/-- C73: the start of `reset_unchecked`. If the proxy has no chunk it returns. Else it has the chunks older than its newest one,
as recorded in memory, to give back. -/
theorem C73_starts {p0 ps ps' : PS} {K : PBook} (h : PReach p0 ps K) {i : Nat} (hl : PLegal K (.resetUnchecked i)) {r}
    (hs : pstep ps (.resetUnchecked i) = .ok (some (r, ps'))) :
    ∃ p, ps.px i = some p ∧ ((p.a.root = 0 ∧ ps'.Gives i r []) ∨
      (p.a.root ≠ 0 ∧ ∃ prev L, decodeWord ps.s.w.mem (p.a.root + 16) = some prev ∧ Older ps.s.w.mem prev L ∧ ps'.Gives i r L)) := by
  cases hl with
  | resetUnchecked hr =>
  obtain ⟨KS, cs, pend, m, hi, hp, hv, hL, hm, hidle⟩ := h.ready hr
  refine ⟨_, hp, ?_⟩
  simp only [pstep, hp] at hs
  have hacc := hi.acc_left i
  generalize hcs : cs i = csi at *
  cases csi with
  | nil =>
    rw [if_pos (show rootOf [] = 0 from rfl)] at hs
    injection hs with hs; injection hs with hs; injection hs with h1 h2
    subst h1; subst h2
    exact .inl ⟨rfl, rfl, hidle, _, PS.setPx_same _ _ _, rfl⟩
  | cons c t =>
    have hne : rootOf (c :: t) ≠ 0 := by rw [Ne, rootOf_eq_zero hv.ok]; simp
    rw [if_neg hne] at hs
    obtain ⟨m', he, hv1, hv2, hmem⟩ := chunkReset_core hv hacc
    rw [ebind_ok (show chunkReset (rootOf (c :: t)) ps.s.w = _ from he)] at hs
    have hR : Rep ps.s.w.mem (c :: t) := hv.rep
    refine .inr ⟨hne, rootOf t, _, decodeWord_of hR.1.2.2.1, Rep.older hR.2 fun d hd => hv.ok d (List.mem_cons_of_mem _ hd), ?_⟩
    exact freeNext_gives hv2 hacc.cons hidle hs

/-- C73: when the shared allocator has taken a chunk back, the proxy goes on with the next, or returns if there is none. -/
theorem C73_next {p0 ps : PS} {K : PBook} (h : PReach p0 ps K) {i : Nat} {L} (hw : ps.ToGive i L) {ch : Choice} {v : Resp} {s' : SS}
    (hs : sstep ps.s (.go i ch) = .ok (some (some v, s'))) :
    ∃ r ps', pstep ps (.shared (.go i ch)) = .ok (some (r, ps')) ∧ ps'.Gives i r L := by
  obtain ⟨KS, cs, pend, hi⟩ := h.inv
  obtain ⟨c, m, h1, h2, h3, h4, h5⟩ := hi.toGive hw
  obtain ⟨e1, e2, _⟩ := hi.reach.ret_w hs
  obtain ⟨r, ps', he, _⟩ := hi.resumeChain hs h4
  refine ⟨r, ps', he, ?_⟩
  rw [pstep_go_wait hs h1 (by simp)] at he
  have hacc : Acc ps.s.w (pend i) := fun d hd => hi.acc i d (List.mem_append_right _ hd)
  rw [h3]
  exact freeNext_gives (w := s'.w) (by rw [e1]; exact h2) (by rw [e1]; exact hacc) e2 he

/-- Whose step it is. -/
def PAct.who : PAct → Option Nat
  | .shared (.go t _) => some t
  | .shared _ => none
  | .spawn i _ | .allocate i _ | .resize i _ _ _ | .deallocate i _ _ | .reset i | .resetUnchecked i | .drop i => some i
  | .updateMax _ _ | .sync _ _ => none

theorem ask_px {ps ps' : PS} {i a w c pc r} (h : PS.ask ps i a w c pc = .ok (some (r, ps'))) {u : Nat} (hu : u ≠ i) : ps'.px u = ps.px u := by
  unfold PS.ask at h
  split at h
  · injection h with h; injection h with h; injection h with _ h; subst h
    exact PS.setPx_ne _ _ hu
  · cases h

theorem answer_px {ps ps' : PS} {i a w v r} (h : PS.answer ps i a w v = .ok (some (r, ps'))) {u : Nat} (hu : u ≠ i) : ps'.px u = ps.px u := by
  injection h with h; injection h with h; injection h with _ h; subst h
  exact PS.setPx_ne _ _ hu

theorem freeNext_px {ps ps' : PS} {i a c w r} (h : PS.freeNext ps i a c w = .ok (some (r, ps'))) {u : Nat} (hu : u ≠ i) : ps'.px u = ps.px u := by
  unfold PS.freeNext at h
  split at h
  · exact answer_px h hu
  · obtain ⟨x, _, h⟩ := ebind_inv h
    obtain ⟨y, _, h⟩ := ebind_inv h
    obtain ⟨z, _, h⟩ := ebind_inv h
    exact ask_px h hu

theorem resume_px {ps ps' : PS} {i a v pc r} (h : PS.resume ps i a v pc = .ok (some (r, ps'))) {u : Nat} (hu : u ≠ i) : ps'.px u = ps.px u := by
  cases pc with
  | idle => cases h
  | chain n => exact freeNext_px h hu
  | alloc l =>
    cases v with
    | block sl =>
      simp only [PS.resume] at h
      obtain ⟨x, _, h⟩ := ebind_inv h
      exact answer_px h hu
    | unit => exact answer_px h hu
    | err => exact answer_px h hu
  | resize p old new =>
    cases v with
    | block sl =>
      simp only [PS.resume] at h
      obtain ⟨x, _, h⟩ := ebind_inv h
      obtain ⟨y, _, h⟩ := ebind_inv h
      exact answer_px h hu
    | unit => exact answer_px h hu
    | err => exact answer_px h hu

/-- Steps of others leave a proxy alone. -/
theorem pstep_px {ps ps' : PS} {a : PAct} {r} (h : pstep ps a = .ok (some (r, ps'))) {u : Nat} (hu : a.who ≠ some u) :
    ps'.px u = ps.px u := by
  have shared : ∀ {a'}, (sstep ps.s a' >>= fun x => match x with
      | none => pure none
      | some (r, s') => pure (some (r, { ps with s := s' }))) = (.ok (some (r, ps')) : PRes) → ps'.px u = ps.px u := by
    intro a' h
    obtain ⟨x, _, h⟩ := ebind_inv h
    rcases x with _ | ⟨r', s'⟩
    · cases h
    · injection h with h; injection h with h; injection h with _ h; subst h; rfl
  cases a with
  | shared a =>
    cases a with
    | go t ch =>
      have hu' : u ≠ t := fun he => hu (by rw [he]; rfl)
      simp only [pstep] at h
      obtain ⟨x, _, h⟩ := ebind_inv h
      rcases x with _ | ⟨_ | v, s'⟩
      · cases h
      · injection h with h; injection h with h; injection h with _ h; subst h; rfl
      · simp only at h
        split at h
        · split at h
          · injection h with h; injection h with h; injection h with _ h; subst h; rfl
          · rw [resume_px h hu']
        · injection h with h; injection h with h; injection h with _ h; subst h; rfl
    | call t c => exact shared h
    | write x v => exact shared h
    | reset => exact shared h
    | resetUnchecked => exact shared h
    | resetFinal => exact shared h
  | spawn i k =>
    have hu' : u ≠ i := fun he => hu (by rw [he]; rfl)
    simp only [pstep] at h
    split at h
    · cases h
    · split at h
      · injection h with h; injection h with h; injection h with _ h; subst h
        rw [PS.setPx_ne _ _ hu']; rfl
      · cases h
  | allocate i l =>
    have hu' : u ≠ i := fun he => hu (by rw [he]; rfl)
    simp only [pstep] at h
    split at h
    · obtain ⟨⟨x, w⟩, _, h⟩ := ebind_inv h
      cases x with
      | some b => exact answer_px h hu'
      | none =>
        obtain ⟨⟨q, w'⟩, _, h⟩ := ebind_inv h
        cases q with
        | none => exact answer_px h hu'
        | some s => exact ask_px h hu'
    · cases h
  | resize i p old new =>
    have hu' : u ≠ i := fun he => hu (by rw [he]; rfl)
    simp only [pstep] at h
    split at h
    · obtain ⟨⟨x, w⟩, _, h⟩ := ebind_inv h
      cases x with
      | some b => exact answer_px h hu'
      | none =>
        obtain ⟨⟨q, w'⟩, _, h⟩ := ebind_inv h
        cases q with
        | none => exact answer_px h hu'
        | some s => exact ask_px h hu'
    · cases h
  | deallocate i p n =>
    have hu' : u ≠ i := fun he => hu (by rw [he]; rfl)
    simp only [pstep] at h
    split at h
    · obtain ⟨x, _, h⟩ := ebind_inv h
      exact answer_px h hu'
    · cases h
  | reset i =>
    have hu' : u ≠ i := fun he => hu (by rw [he]; rfl)
    simp only [pstep] at h
    split at h
    · obtain ⟨x, _, h⟩ := ebind_inv h
      obtain ⟨y, _, h⟩ := ebind_inv h
      rw [answer_px h hu']; rfl
    · cases h
  | resetUnchecked i =>
    have hu' : u ≠ i := fun he => hu (by rw [he]; rfl)
    simp only [pstep] at h
    split at h
    · split at h
      · exact answer_px h hu'
      · obtain ⟨x, _, h⟩ := ebind_inv h
        exact freeNext_px h hu'
    · cases h
  | drop i =>
    have hu' : u ≠ i := fun he => hu (by rw [he]; rfl)
    simp only [pstep] at h
    split at h
    · obtain ⟨x, _, h⟩ := ebind_inv h
      obtain ⟨y, _, h⟩ := ebind_inv h
      obtain ⟨z, _, h⟩ := ebind_inv h
      injection h with h; injection h with h; injection h with _ h; subst h
      rw [PS.setPx_ne _ _ hu']; rfl
    · cases h
  | updateMax t v => injection h with h; injection h with h; injection h with _ h; subst h; rfl
  | sync t v => injection h with h; injection h with h; injection h with _ h; subst h; rfl

/-- C73: while the shared allocator works on a chunk of the proxy, and whatever anybody else does, the chunks still to be given
back stay the same. -/
theorem C73_meanwhile {p0 ps ps' : PS} {K : PBook} (h : PReach p0 ps K) {i : Nat} {L} (hw : ps.ToGive i L) {a : PAct} (hl : PLegal K a)
    {r} (hs : pstep ps a = .ok (some (r, ps'))) (ha : ∀ ch v s', a = .shared (.go i ch) → sstep ps.s (.go i ch) ≠ .ok (some (some v, s'))) :
    ps'.ToGive i L := by
  obtain ⟨KS, cs, pend, hi, hE⟩ := h.eff hl hs
  obtain ⟨c, m, h1, h2, h3, h4, h5⟩ := hi.toGive hw
  have hpx : ps'.px i = ps.px i := by
    by_cases hgo : ∃ ch, a = .shared (.go i ch)
    · obtain ⟨ch, rfl⟩ := hgo
      cases hss : sstep ps.s (.go i ch) with
      | error e => simp only [pstep] at hs; rw [ebind_err hss] at hs; cases hs
      | ok x =>
        rcases x with _ | ⟨_ | v, s'⟩
        · simp only [pstep] at hs; rw [ebind_ok hss] at hs; cases hs
        · rw [(hi.goNone hss).1] at hs
          injection hs with hs; injection hs with hs; injection hs with _ hs
          subst hs; rfl
        · exact absurd hss (ha _ _ _ rfl)
    · refine pstep_px hs ?_
      have hready : ∀ {j}, K.Ready j → j ≠ i := by
        rintro j ⟨_, hj, _⟩ rfl
        rw [h4] at hj; cases hj
      cases hl with
      | call => simp [PAct.who]
      | @go t ch =>
        intro he
        injection he with he
        exact hgo ⟨ch, by rw [← he]⟩
      | write => simp [PAct.who]
      | pwrite => simp [PAct.who]
      | sreset hr => rcases hr with rfl | rfl | rfl <;> simp [PAct.who]
      | spawn hn =>
        intro he
        injection he with he
        subst he
        rw [h5] at hn; cases hn
      | allocate hr => intro he; injection he with he; exact hready hr he
      | resize hr => intro he; injection he with he; exact hready hr he
      | deallocate hr => intro he; injection he with he; exact hready hr he
      | reset hr => intro he; injection he with he; exact hready hr he
      | resetUnchecked hr => intro he; injection he with he; exact hready hr he
      | drop hr => intro he; injection he with he; exact hready hr he
      | updateMax => simp [PAct.who]
      | sync => simp [PAct.who]
  refine ⟨_, _, hpx.trans h1, rfl, ?_⟩
  rw [h3]
  refine Rep.older ?_ h2.ok
  refine Rep.congr (m := ps.s.w.mem) h2.rep fun d hd x a1 a2 => ?_
  have hok := h2.ok d hd
  have := hok.lo; have := hok.hi
  exact hE.pend i x ⟨d, hd, a1, by omega⟩

/-- C73: along any history in which the call has not come back, the proxy has given back the first so many of the chunks it had
to give back and has yet to give back the others. -/
theorem C73_history {p0 ps ps2 : PS} {K K2 : PBook} (h : PReach p0 ps K) {i : Nat} {L} (hw : ps.ToGive i L) {tr}
    (hr : PRun ps K tr ps2 K2) (hn : NotBack i tr) : ∃ given L2, L = given ++ L2 ∧ ps2.ToGive i L2 := by
  have main : PReach p0 ps2 K2 ∧ ∃ given L2, L = given ++ L2 ∧ ps2.ToGive i L2 := by
    induction hr with
    | nil => exact ⟨h, [], L, rfl, hw⟩
    | @snoc tr s K1 a r s' K' hr hl hs ha ih =>
      obtain ⟨h1, given, L2, h2, h3⟩ := ih (fun ch r hm => hn ch r (List.mem_append_left _ hm))
      refine ⟨by obtain ⟨h0, tr0, hr0⟩ := h1; exact ⟨h0, _, hr0.snoc hl hs ha⟩, ?_⟩
      by_cases hans : ∃ ch v q, a = .shared (.go i ch) ∧ sstep s.s (.go i ch) = .ok (some (some v, q))
      · obtain ⟨ch, v, q, rfl, hq⟩ := hans
        obtain ⟨r', s2, e1, e2⟩ := C73_next h1 h3 hq
        rw [e1] at hs
        injection hs with hs; injection hs with hs; injection hs with hs1 hs2
        subst hs1; subst hs2
        cases L2 with
        | nil =>
          have : r' = some .unit := e2.1
          exact absurd (List.mem_append_right tr (by rw [this]; exact List.mem_singleton_self _)) (hn ch .unit)
        | cons x L2 => exact ⟨given ++ [x], L2, by rw [h2]; simp, e2.2.2⟩
      · exact ⟨given, L2, h2, C73_meanwhile h1 h3 hl hs fun ch v q e1 e2 => hans ⟨ch, v, q, e1, e2⟩⟩
  exact main.2

/-- C73: when the call comes back everything has been given back. -/
theorem C73_complete {p0 ps ps' : PS} {K : PBook} (h : PReach p0 ps K) {i : Nat} {L} (hw : ps.ToGive i L) {ch : Choice} {r : Resp}
    (hs : pstep ps (.shared (.go i ch)) = .ok (some (some r, ps'))) : L = [] ∧ r = .unit := by
  obtain ⟨KS, cs, pend, hi⟩ := h.inv
  cases hss : sstep ps.s (.go i ch) with
  | error e => simp only [pstep] at hs; rw [ebind_err hss] at hs; cases hs
  | ok x =>
    rcases x with _ | ⟨_ | v, s'⟩
    · simp only [pstep] at hs; rw [ebind_ok hss] at hs; cases hs
    · rw [(hi.goNone hss).1] at hs; cases hs
    · obtain ⟨r', s2, e1, e2⟩ := C73_next h hw hss
      rw [e1] at hs
      injection hs with hs; injection hs with hs; injection hs with hs1 hs2
      subst hs1
      cases L with
      | nil => exact ⟨rfl, by have := e2.1; injection this⟩
      | cons x L => exact absurd e2.1 (by simp)

/-! ### Which chunks a proxy has -/

/-- Proxy `i` exists and its chunks, as recorded in the chunk headers, newest first, are `L`. -/
def PS.Chunks (ps : PS) (i : Nat) (L : List (Nat × Nat)) : Prop := ∃ p, ps.px i = some p ∧ Older ps.s.w.mem p.a.root L

theorem PInv.chunks {p0 ps K KS cs pend} (h : PInv p0 ps K KS cs pend) {i p} (hp : ps.px i = some p) :
    Older ps.s.w.mem p.a.root ((cs i).map Chunk.span) := by
  have hx := h.px i
  rw [hp] at hx
  generalize K.pbusy i = pb at hx
  generalize K.live i = lv at hx
  generalize K.direct.busy i = db at hx
  generalize K.led i = ld at hx
  generalize KS.busy i = kb at hx
  generalize cs i = csi at hx ⊢
  generalize pend i = pd at hx
  cases hx with
  | idle hv => exact Rep.older (m := ps.s.w.mem) hv.rep hv.ok
  | alloc hv => exact Rep.older (m := ps.s.w.mem) hv.rep hv.ok
  | resize hv => exact Rep.older (m := ps.s.w.mem) hv.rep hv.ok
  | @chain c _ _ _ _ _ hv => exact Rep.older (m := ps.s.w.mem) (P := [c]) hv.rep hv.ok

/-- C73: every proxy has a list of chunks. -/
theorem C73_chunks_exist {p0 ps : PS} {K : PBook} (h : PReach p0 ps K) {i p} (hp : ps.px i = some p) : ∃ L, ps.Chunks i L := by
  obtain ⟨KS, cs, pend, hi⟩ := h.inv
  exact ⟨_, p, hp, hi.chunks hp⟩

/-- C73: a new proxy has no chunks. -/
theorem C73_chunks_new {ps ps' : PS} {i k : Nat} {r}
    (hs : pstep ps (.spawn i k) = .ok (some (r, ps'))) : ps'.Chunks i [] := by
  simp only [pstep] at hs
  split at hs
  · cases hs
  · split at hs
    · injection hs with hs; injection hs with hs; injection hs with _ hs; subst hs
      exact ⟨_, PS.setPx_same _ _ _, .nil⟩
    · cases hs

/-- C73: in every step the chunks of every proxy become what `PS.chunksAfter` says: a block the shared allocator answers a waiting
`allocate` or `resize` of the proxy with is added, `reset` and `reset_unchecked` leave the newest, nothing else changes them. -/
theorem C73_chunks {p0 ps ps' : PS} {K K' : PBook} (h : PReach p0 ps K) {a : PAct} (hl : PLegal K a) {r}
    (hs : pstep ps a = .ok (some (r, ps'))) (ha : PAfter ps.s.w.mem K a r K') {j L p'} (hL : ps.Chunks j L) (hp' : ps'.px j = some p') :
    ps'.Chunks j (ps.chunksAfter a j L) := by
  obtain ⟨KS, cs, pend, hi⟩ := h.inv
  obtain ⟨p, hp, hO⟩ := hL
  have := hO.unique (hi.chunks hp)
  subst this
  rcases hi.step hl with ⟨e, _, he⟩ | he | ⟨r', ps1, he, _, hK⟩
  · rw [he] at hs; cases hs
  · rw [he] at hs; cases hs
  · rw [he] at hs
    injection hs with hs; injection hs with hs; injection hs with h1 h2
    subst h1; subst h2
    obtain ⟨KS', cs', pend', hi', hc, _⟩ := hK _ ha
    exact ⟨p', hp', hc j ▸ hi'.chunks hp'⟩

/-- C73: `reset_unchecked` gives back all chunks but the newest. -/
theorem C73_all_but_newest {p0 ps ps' : PS} {K : PBook} (h : PReach p0 ps K) {i : Nat} (hl : PLegal K (.resetUnchecked i)) {r}
    (hs : pstep ps (.resetUnchecked i) = .ok (some (r, ps'))) {L} (hL : ps.Chunks i L) : ps'.Gives i r L.tail := by
  obtain ⟨p, hp, hc⟩ := C73_starts h hl hs
  obtain ⟨p', hp', hO⟩ := hL
  rw [hp] at hp'
  injection hp' with hp'
  subst hp'
  generalize p.a.root = c at hc hO
  rcases hc with ⟨h1, h2⟩ | ⟨h1, prev, L', h2, h3, h4⟩
  · cases hO with
    | nil => exact h2
    | cons hc => exact absurd h1 hc
  · cases hO with
    | nil => exact absurd rfl h1
    | cons hc he hpr h =>
      rw [hpr] at h2
      injection h2 with h2
      subst h2
      exact h.unique h3 ▸ h4

/-! ### The hypotheses are met -/

/-- Proxy 0 with three chunks starts `reset_unchecked`: it gives back the middle one first (1024 bytes at 65824), and has the
oldest (256 bytes at 65568) yet to give back. -/
example : ∃ p0 ps K ps' p, PReach p0 ps K ∧ PLegal K (.resetUnchecked 0) ∧ pstep ps (.resetUnchecked 0) = .ok (some (none, ps')) ∧
    ps.px 0 = some p ∧ p.a.root ≠ 0 ∧ ps'.s.pcs 0 = .rd (.deallocate 65824 1024) ∧ ps'.ToGive 0 [(65568, 256)] := by
  obtain ⟨rs, ps, K, h0, hr, _, hf⟩ := of_pdemoAt (sizes := [8192, 8192]) (m := 1024)
    (as := [.spawn 0 0, .allocate 0 ⟨100, 8⟩] ++ pgoes 0 5 ++ [.allocate 0 ⟨600, 8⟩] ++ pgoes 0 4 ++
      [.allocate 0 ⟨2000, 8⟩] ++ pgoes 0 4) (f := fun _ ps K =>
    K.readyB 0 && (match ps.px 0 with | some p => decide (p.a.root ≠ 0) | _ => false) &&
    match pstep ps (.resetUnchecked 0) with
    | .ok (some (none, ps')) => decide (ps'.s.pcs 0 = .rd (.deallocate 65824 1024)) && (match ps'.px 0 with
      | some ⟨_, .chain next⟩ => decide (next = 65568) && decide (decodeWord ps'.s.w.mem (next + 8) = some 65824) &&
          decide (decodeWord ps'.s.w.mem (next + 16) = some 0)
      | _ => false)
    | _ => false) (by decide +kernel)
  simp only [Bool.and_eq_true] at hf
  obtain ⟨⟨h1, h2⟩, h3⟩ := hf
  split at h2
  · rename_i p hp
    split at h3
    · rename_i ps' hs
      simp only [Bool.and_eq_true, decide_eq_true_eq] at h3
      obtain ⟨h4, h5⟩ := h3
      split at h5
      · rename_i a next hpx
        simp only [Bool.and_eq_true, decide_eq_true_eq] at h5
        obtain ⟨⟨rfl, h6⟩, h7⟩ := h5
        have hold : Older ps'.s.w.mem 65568 [(65568, 256)] := by
          have := Older.cons (c := 65568) (by decide) h6 h7 .nil
          simpa only [Nat.reduceSub] using this
        exact ⟨_, ps, K, ps', p, ⟨h0, _, hr⟩, .resetUnchecked (PBook.readyB_sound h1), hs, hp, by simpa using h2, h4,
          _, _, hpx, rfl, hold⟩
      · cases h5
    · cases h3
  · cases h2

/-- The hypotheses of `C73_next` and `C73_meanwhile` are met: the shared allocator is about to answer the proxy's first
`deallocate`, and another proxy is about to allocate. -/
example : ∃ p0 ps K v s', PReach p0 ps K ∧ ps.ToGive 0 [(65568, 256)] ∧ sstep ps.s (.go 0 fresh) = .ok (some (some v, s')) ∧
    PLegal K (.allocate 1 ⟨5, 1⟩) := by
  obtain ⟨rs, ps, K, h0, hr, _, hf⟩ := of_pdemoAt (sizes := [8192, 8192]) (m := 1024)
    (as := [.spawn 0 0, .spawn 1 0, .allocate 0 ⟨100, 8⟩] ++ pgoes 0 5 ++ [.allocate 0 ⟨600, 8⟩] ++ pgoes 0 4 ++
      [.allocate 0 ⟨2000, 8⟩] ++ pgoes 0 4 ++ [.resetUnchecked 0] ++ pgoes 0 2) (f := fun _ ps K =>
    K.readyB 1 && (match sstep ps.s (.go 0 fresh) with | .ok (some (some _, _)) => true | _ => false) &&
    (match ps.px 0 with
      | some ⟨_, .chain next⟩ => decide (next = 65568) && decide (decodeWord ps.s.w.mem (next + 8) = some 65824) &&
          decide (decodeWord ps.s.w.mem (next + 16) = some 0)
      | _ => false)) (by decide +kernel)
  simp only [Bool.and_eq_true] at hf
  obtain ⟨⟨h1, h2⟩, h5⟩ := hf
  split at h2
  · rename_i v s' hs
    split at h5
    · rename_i a next hpx
      simp only [Bool.and_eq_true, decide_eq_true_eq] at h5
      obtain ⟨⟨rfl, h6⟩, h7⟩ := h5
      have hold : Older ps.s.w.mem 65568 [(65568, 256)] := by
        have := Older.cons (c := 65568) (by decide) h6 h7 .nil
        simpa only [Nat.reduceSub] using this
      exact ⟨_, ps, K, v, s', ⟨h0, _, hr⟩, ⟨_, _, hpx, rfl, hold⟩, hs,
        .allocate (PBook.readyB_sound h1) ⟨⟨⟨0, rfl⟩, by decide⟩, by decide⟩⟩
    · cases h5
  · cases h2

/-- The hypotheses of `C73_chunks` are met with a change of the list: proxy 0 has a chunk of 256 bytes at 65568 and waits for a
block, and the shared allocator is about to answer with 1024 bytes at 65824. -/
example : ∃ p0 ps K K' r ps' p', PReach p0 ps K ∧ PLegal K (.shared (.go 0 fresh)) ∧
    pstep ps (.shared (.go 0 fresh)) = .ok (some (some r, ps')) ∧ PAfter ps.s.w.mem K (.shared (.go 0 fresh)) (some r) K' ∧
    ps.Chunks 0 [(65568, 256)] ∧ ps'.px 0 = some p' ∧
    ps.chunksAfter (.shared (.go 0 fresh)) 0 [(65568, 256)] = [(65824, 1024), (65568, 256)] := by
  obtain ⟨rs, ps, K, h0, hr, _, hf⟩ := of_pdemoAt (sizes := [8192, 8192]) (m := 1024)
    (as := [.spawn 0 0, .allocate 0 ⟨100, 8⟩] ++ pgoes 0 5 ++ [.allocate 0 ⟨600, 8⟩] ++ pgoes 0 3) (f := fun _ ps K =>
    decide (ps.chunksAfter (.shared (.go 0 fresh)) 0 [(65568, 256)] = [(65824, 1024), (65568, 256)]) &&
    (K.pbusy 0).isSome &&
    (match ps.px 0 with
      | some p => decide (p.a.root = 65568) && decide (decodeWord ps.s.w.mem (65568 + 8) = some 65824) &&
          decide (decodeWord ps.s.w.mem (65568 + 16) = some 0)
      | _ => false) &&
    match pstep ps (.shared (.go 0 fresh)) with
    | .ok (some (some _, ps')) => (ps'.px 0).isSome
    | _ => false) (by decide +kernel)
  simp only [Bool.and_eq_true, decide_eq_true_eq] at hf
  obtain ⟨⟨⟨h1, h2⟩, h3⟩, h4⟩ := hf
  obtain ⟨⟨c, ob⟩, hb⟩ := Option.isSome_iff_exists.1 h2
  split at h3
  · rename_i p hp
    simp only [Bool.and_eq_true, decide_eq_true_eq] at h3
    obtain ⟨⟨h5, h6⟩, h7⟩ := h3
    split at h4
    · rename_i r ps' hs
      obtain ⟨p', hp'⟩ := Option.isSome_iff_exists.1 h4
      have hold : Older ps.s.w.mem 65568 [(65568, 256)] := by
        have := Older.cons (c := 65568) (by decide) h6 h7 .nil
        simpa only [Nat.reduceSub] using this
      exact ⟨_, ps, K, _, r, ps', p', ⟨h0, _, hr⟩, .go, hs, .back hb, ⟨p, hp, h5 ▸ hold⟩, hp', h1⟩
    · cases h4
  · cases h3

end Blink
