import Verif.Props.ProxyReset
import Verif.Props.Growth
/-
  C74: how the chunks of a proxy grow. The chunk size a proxy was created with bounds all its chunks from below, for as long as it
  lives, and each further chunk is larger than all but the newest of the older ones together, so that their number is logarithmic in
  their capacity.
-/
namespace Blink

/-- Capacity of chunks given by address and length: what is left beside the headers of 32 bytes. -/
def spanCapacity (L : List (Nat × Nat)) : Nat := (L.map (fun c => c.2 - 32)).sum

theorem spanCapacity_span {cs : List Chunk} (h : ∀ c ∈ cs, ChunkOK c) : spanCapacity (cs.map Chunk.span) = (cs.map Chunk.cap).sum := by
  unfold spanCapacity
  induction cs with
  | nil => rfl
  | cons c t ih =>
    have := ih fun d hd => h d (List.mem_cons_of_mem _ hd)
    have := (h c List.mem_cons_self).lo; have := (h c List.mem_cons_self).hi
    simp only [List.map_cons, List.sum_cons, Chunk.span, Chunk.cap] at *
    omega

/-! ### The remembered chunk size -/

theorem ask_min {ps ps' : PS} {i a w c pc r} (h : PS.ask ps i a w c pc = .ok (some (r, ps'))) :
    ∃ p', ps'.px i = some p' ∧ p'.a.minChunk = a.minChunk := by
  unfold PS.ask at h
  split at h
  · injection h with h; injection h with h; injection h with _ h; subst h
    exact ⟨_, PS.setPx_same _ _ _, rfl⟩
  · cases h

theorem answer_min {ps ps' : PS} {i a w v r} (h : PS.answer ps i a w v = .ok (some (r, ps'))) :
    ∃ p', ps'.px i = some p' ∧ p'.a.minChunk = a.minChunk := by
  injection h with h; injection h with h; injection h with _ h; subst h
  exact ⟨_, PS.setPx_same _ _ _, rfl⟩

theorem freeNext_min {ps ps' : PS} {i a c w r} (h : PS.freeNext ps i a c w = .ok (some (r, ps'))) :
    ∃ p', ps'.px i = some p' ∧ p'.a.minChunk = a.minChunk := by
  unfold PS.freeNext at h
  split at h
  · exact answer_min h
  · obtain ⟨x, _, h⟩ := ebind_inv h
    obtain ⟨y, _, h⟩ := ebind_inv h
    obtain ⟨z, _, h⟩ := ebind_inv h
    exact ask_min h

theorem resume_min {ps ps' : PS} {i a v pc r} (h : PS.resume ps i a v pc = .ok (some (r, ps'))) :
    ∃ p', ps'.px i = some p' ∧ p'.a.minChunk = a.minChunk := by
  cases pc with
  | idle => cases h
  | chain n => exact freeNext_min h
  | alloc l =>
    cases v with
    | block sl =>
      simp only [PS.resume] at h
      obtain ⟨x, _, h⟩ := ebind_inv h
      obtain ⟨p', h1, h2⟩ := answer_min h
      exact ⟨p', h1, h2⟩
    | unit => exact answer_min h
    | err => exact answer_min h
  | resize p old new =>
    cases v with
    | block sl =>
      simp only [PS.resume] at h
      obtain ⟨x, _, h⟩ := ebind_inv h
      obtain ⟨y, _, h⟩ := ebind_inv h
      obtain ⟨p', h1, h2⟩ := answer_min h
      exact ⟨p', h1, h2⟩
    | unit => exact answer_min h
    | err => exact answer_min h

/-- A proxy stays until it is dropped, with the chunk size it was created with. -/
theorem pstep_stays {ps ps' : PS} {a : PAct} {r} (hs : pstep ps a = .ok (some (r, ps'))) {u : Nat} {p : Proxy}
    (hp : ps.px u = some p) (ha : a ≠ .drop u) : ∃ p', ps'.px u = some p' ∧ p'.a.minChunk = p.a.minChunk := by
  by_cases hu : a.who = some u
  · cases a with
    | shared a =>
      cases a with
      | go t ch =>
        injection hu with hu
        subst hu
        simp only [pstep] at hs
        obtain ⟨x, _, h⟩ := ebind_inv hs
        rcases x with _ | ⟨_ | v, s'⟩
        · cases h
        · injection h with h; injection h with h; injection h with _ h; subst h
          exact ⟨p, hp, rfl⟩
        · simp only [hp] at h
          split at h
          · injection h with h; injection h with h; injection h with _ h; subst h
            exact ⟨p, hp, rfl⟩
          · exact resume_min h
      | call | write | reset | resetUnchecked | resetFinal => cases hu
    | spawn i k =>
      injection hu with hu
      subst hu
      simp only [pstep, hp] at hs
      cases hs
    | updateMax | sync => cases hu
    | allocate i l =>
      injection hu with hu
      subst hu
      obtain ⟨a, pc⟩ := p
      cases pc with
      | idle =>
        simp only [pstep, hp] at hs
        obtain ⟨⟨x, w⟩, _, h⟩ := ebind_inv hs
        cases x with
        | some b => exact answer_min h
        | none =>
          obtain ⟨⟨q, w'⟩, _, h⟩ := ebind_inv h
          cases q with
          | none => exact answer_min h
          | some s => exact ask_min h
      | _ => simp only [pstep, hp] at hs; cases hs
    | resize i p0 old new =>
      injection hu with hu
      subst hu
      obtain ⟨a, pc⟩ := p
      cases pc with
      | idle =>
        simp only [pstep, hp] at hs
        obtain ⟨⟨x, w⟩, _, h⟩ := ebind_inv hs
        cases x with
        | some b => exact answer_min h
        | none =>
          obtain ⟨⟨q, w'⟩, _, h⟩ := ebind_inv h
          cases q with
          | none => exact answer_min h
          | some s => exact ask_min h
      | _ => simp only [pstep, hp] at hs; cases hs
    | deallocate i p0 n =>
      injection hu with hu
      subst hu
      obtain ⟨a, pc⟩ := p
      cases pc with
      | idle =>
        simp only [pstep, hp] at hs
        obtain ⟨x, _, h⟩ := ebind_inv hs
        exact answer_min h
      | _ => simp only [pstep, hp] at hs; cases hs
    | reset i =>
      injection hu with hu
      subst hu
      obtain ⟨a, pc⟩ := p
      cases pc with
      | idle =>
        simp only [pstep, hp] at hs
        obtain ⟨x, _, h⟩ := ebind_inv hs
        obtain ⟨y, _, h⟩ := ebind_inv h
        obtain ⟨p', h1, h2⟩ := answer_min h
        exact ⟨p', h1, h2⟩
      | _ => simp only [pstep, hp] at hs; cases hs
    | resetUnchecked i =>
      injection hu with hu
      subst hu
      obtain ⟨a, pc⟩ := p
      cases pc with
      | idle =>
        simp only [pstep, hp] at hs
        split at hs
        · exact answer_min hs
        · obtain ⟨x, _, h⟩ := ebind_inv hs
          exact freeNext_min h
      | _ => simp only [pstep, hp] at hs; cases hs
    | drop i => injection hu with hu; exact absurd (by rw [hu]) ha
  · exact ⟨p, (pstep_px hs hu).trans hp, rfl⟩

/-- C74: a proxy keeps the chunk size it was created with. -/
theorem C74_minimum {ps ps' : PS} {a : PAct} {r} (hs : pstep ps a = .ok (some (r, ps'))) {u : Nat} {p p' : Proxy}
    (hp : ps.px u = some p) (hp' : ps'.px u = some p') : p'.a.minChunk = p.a.minChunk := by
  by_cases ha : a = .drop u
  · subst ha
    obtain ⟨a, pc⟩ := p
    cases pc with
    | idle =>
      simp only [pstep, hp] at hs
      obtain ⟨x, _, h⟩ := ebind_inv hs
      obtain ⟨y, _, h⟩ := ebind_inv h
      obtain ⟨z, _, h⟩ := ebind_inv h
      injection h with h; injection h with h; injection h with _ h; subst h
      rw [PS.setPx_same] at hp'
      cases hp'
    | _ => simp only [pstep, hp] at hs; cases hs
  · obtain ⟨p1, h1, h2⟩ := pstep_stays hs hp ha
    rw [h1] at hp'
    injection hp' with hp'; subst hp'; exact h2

/-! ### What is asked of the shared allocator -/

/-- The size a request is computed from, before header, alignment and rounding: `L` are the chunks of the proxy, newest first, `m`
is the chunk size it was created with, `n` the size asked of it. -/
def baseSize (L : List (Nat × Nat)) (m n : Nat) : Nat :=
  match L with
  | [] => max m n
  | _ :: rest => max m (spanCapacity rest) + max n 64

theorem baseSize_need {w : World} {cs : List Chunk} {m : Nat} {l : Layout} (hv : VInv w cs) :
    baseSize (cs.map Chunk.span) m l.size + 32 ≤ need (rootCum cs) m l ∧
      need (rootCum cs) m l ≤ baseSize (cs.map Chunk.span) m l.size + l.align + 32 := by
  cases cs with
  | nil =>
    simp only [need, rootCum, List.head?_nil, Option.map_none, baseSize, List.map_nil]
    split <;> omega
  | cons c t =>
    have hcum := hv.cum.1
    have := spanCapacity_span fun d hd => hv.ok d (List.mem_cons_of_mem _ hd)
    simp only [need, rootCum, List.head?_cons, Option.map_some, baseSize, List.map_cons]
    split <;> omega

theorem req_size {w : World} {cs : List Chunk} {m R : Nat} {l : Layout} (hv : VInv w cs) (hR : chunkReq (rootCum cs) m l = some R) :
    baseSize (cs.map Chunk.span) m l.size + 32 ≤ R ∧ R < baseSize (cs.map Chunk.span) m l.size + l.align + 32 + 16392 ∧
      (baseSize (cs.map Chunk.span) m l.size + l.align + 32 < 16384 →
        R < 2 * (baseSize (cs.map Chunk.span) m l.size + l.align + 32) + 8) := by
  have a := chunkReq_facts hR
  have b := req_tight hR
  have c := baseSize_need (m := m) (l := l) hv
  exact ⟨by omega, by omega, fun _ => by omega⟩

theorem ask_pc {ps ps' : PS} {i a w c pc r} (h : PS.ask ps i a w c pc = .ok (some (r, ps'))) : ps'.s.pcs i = .rd c := by
  unfold PS.ask at h
  split at h
  · injection h with h; injection h with h; injection h with _ h; subst h
    exact SS.setPc_same _ _ _
  · cases h

theorem answer_back {ps ps' : PS} {i a w v} (h : PS.answer ps i a w v = .ok (some (none, ps'))) : False := by
  injection h with h; injection h with h; injection h with h; cases h

/-- C74: the size of the block a proxy asks the shared allocator for, in `allocate` and in `resize`. With `n` being the larger of the
proxy's chunk size and the size asked for if the proxy has no chunk, otherwise the larger of the proxy's chunk size and the capacity of
all its chunks but the newest, plus the size asked for (at least 64): the request is `n` plus header and alignment, rounded up to a
power of two below 16 KiB, to a multiple of 16 KiB above. -/
theorem C74_request {p0 ps ps' : PS} {K : PBook} (h : PReach p0 ps K) {i : Nat} {l : Layout} {a : PAct}
    (ha : a = .allocate i l ∨ ∃ p old, a = .resize i p old l) (hl : PLegal K a) (hs : pstep ps a = .ok (some (none, ps'))) {L}
    (hL : ps.Chunks i L) {p : Proxy} (hp : ps.px i = some p) {n : Nat} (h1 : L = [] → n = max p.a.minChunk l.size)
    (h2 : ∀ c rest, L = c :: rest → n = max p.a.minChunk (spanCapacity rest) + max l.size 64) :
    ∃ R, ps'.s.pcs i = .rd (.allocate ⟨R, 8⟩) ∧ n + 32 ≤ R ∧ R < n + l.align + 32 + 16392 ∧
      (n + l.align + 32 < 16384 → R < 2 * (n + l.align + 32) + 8) := by
  have hn : n = baseSize L p.a.minChunk l.size := by
    cases L with
    | nil => exact h1 rfl
    | cons c t => exact h2 _ _ rfl
  have hrdy : K.Ready i := by
    rcases ha with rfl | ⟨q, old, rfl⟩
    · cases hl with | allocate hr => exact hr
    · exact hl.resize_ready
  obtain ⟨KS, cs, pend, m, hi, hp1, hv, hLK, hm, hidle⟩ := h.ready hrdy
  obtain ⟨p', hp', hO⟩ := hL
  have hLe := hO.unique (hi.chunks hp')
  subst hLe
  rw [hp1] at hp
  injection hp with hp
  subst hp
  subst hn
  have hacc := hi.acc_left i
  have key : ∀ {pc}, l.Modest → (chunkRequest (rootOf (cs i)) m l ps.s.w >>= fun (q, w) => match q with
      | none => ps.answer i ⟨rootOf (cs i), m⟩ w .err
      | some size => ps.ask i ⟨rootOf (cs i), m⟩ w (.allocate ⟨size, HDR_ALIGN⟩) pc) = .ok (some (none, ps')) →
      ∃ R, ps'.s.pcs i = .rd (.allocate ⟨R, 8⟩) ∧ chunkReq (rootCum (cs i)) m l = some R := by
    intro pc hmod hk
    rw [ebind_ok (chunkRequest_core hv hacc (needBound hv hi.top hm hmod) fun R hR => reqBound hv hi.top hm hmod hR)] at hk
    cases hR : chunkReq (rootCum (cs i)) m l with
    | none => rw [hR] at hk; exact (answer_back hk).elim
    | some R =>
      rw [hR] at hk
      exact ⟨R, ask_pc hk, rfl⟩
  have main : ∃ R, ps'.s.pcs i = .rd (.allocate ⟨R, 8⟩) ∧ chunkReq (rootCum (cs i)) m l = some R := by
    rcases ha with rfl | ⟨q, old, rfl⟩
    · cases hl with
      | allocate _ hmod =>
      simp only [pstep, hp1] at hs
      rcases allocFast_core hv hacc hmod.1 (m := m) with ⟨s, w', cs', he, _⟩ | ⟨he, _⟩
      · rw [ebind_ok he] at hs
        exact (answer_back hs).elim
      · rw [ebind_ok he] at hs
        exact key hmod hs
    · obtain ⟨_, hmod, hu⟩ := resize_used hLK hl
      simp only [pstep, hp1] at hs
      rcases resizeFast_core hv hacc hmod.1 hu (m := m) with ⟨s, w', cs', he, _⟩ | ⟨he, _⟩
      · rw [ebind_ok he] at hs
        exact (answer_back hs).elim
      · rw [ebind_ok he] at hs
        exact key hmod hs
  obtain ⟨R, hpc, hR⟩ := main
  exact ⟨R, hpc, req_size hv hR⟩

/-! ### The chunks a proxy has -/

/-- Sizes of the chunks of a proxy with chunk size `m`, newest first. -/
def SpanGrown (m : Nat) : List (Nat × Nat) → Prop
  | [] => True
  | [c] => m + 32 ≤ c.2
  | c :: d :: t => max m (spanCapacity t) + 64 + 32 ≤ c.2 ∧ SpanGrown m (d :: t)

theorem SpanGrown.least {m : Nat} : ∀ {L}, SpanGrown m L → ∀ c ∈ L, m + 32 ≤ c.2
  | [], _, c, hc => by cases hc
  | [d], h, c, hc => by rw [List.mem_singleton] at hc; subst hc; exact h
  | d :: e :: t, h, c, hc => by
    cases hc with
    | head => have := h.1; omega
    | tail _ hc => exact h.2.least c hc

theorem SpanGrown.take1 {m : Nat} : ∀ {L}, SpanGrown m L → SpanGrown m (L.take 1)
  | [], _ => trivial
  | c :: _, h => h.least c List.mem_cons_self

theorem SpanGrown.fib {m : Nat} {L : List (Nat × Nat)} (h : SpanGrown m L) : 64 * fib (L.length + 1) ≤ spanCapacity L + 64 := by
  match L, h with
  | [], _ => simp [Blink.fib, spanCapacity]
  | [c], _ => simp [Blink.fib, spanCapacity]
  | c :: d :: t, h =>
    have h1 := SpanGrown.fib h.2
    have h2 : SpanGrown m t := by
      cases t with
      | nil => trivial
      | cons e t => exact h.2.2
    have h3 := SpanGrown.fib h2
    have := h.1
    simp only [List.length_cons, spanCapacity, List.map_cons, List.sum_cons, Blink.fib] at *
    omega
termination_by L.length

theorem SpanGrown.at {m : Nat} : ∀ {newer c d rest}, SpanGrown m (newer ++ c :: d :: rest) → max m (spanCapacity rest) + 96 ≤ c.2
  | [], _, _, _, h => h.1
  | [_], _, _, _, h => SpanGrown.at (newer := []) h.2
  | _ :: e :: t, _, _, _, h => SpanGrown.at (newer := e :: t) h.2

/-- A block that comes back from the shared allocator while the proxy waits for one has the size it asked for. -/
theorem PInv.given {p0 ps K KS cs pend} (h : PInv p0 ps K KS cs pend) {i : Nat} {p : Proxy} (hp : ps.px i = some p)
    (hpc : (∃ l, p.pc = .alloc l) ∨ ∃ q old new, p.pc = .resize q old new) {ch : Choice} {b : Slice} {s' : SS}
    (hs : sstep ps.s (.go i ch) = .ok (some (some (.block b), s'))) :
    ∃ n, baseSize ((cs i).map Chunk.span) p.a.minChunk n + 32 ≤ b.len := by
  have key : ∀ {R}, KS.busy i = some (.allocate ⟨R, 8⟩, none) → R ≤ b.len := by
    intro R hb
    obtain ⟨h0, tr, hr⟩ := h.reach
    have hreach : SReach p0.s s' { KS with owned := Owned.of b ⟨R, 8⟩ :: KS.owned, busy := put KS.busy i none } :=
      ⟨h0, _, hr.snoc .go hs (.ret hb)⟩
    obtain ⟨_, f2, _⟩ := C22_layout_and_memory hreach (b := Owned.of b ⟨R, 8⟩) List.mem_cons_self
    exact f2
  have hx := h.px i
  rw [hp] at hx
  generalize K.pbusy i = pb at hx
  generalize K.live i = lv at hx
  generalize K.direct.busy i = db at hx
  generalize K.led i = ld at hx
  generalize hkb : KS.busy i = kb at hx key
  generalize cs i = csi at hx ⊢
  generalize pend i = pd at hx
  cases hx with
  | idle => rcases hpc with ⟨l, hl⟩ | ⟨_, _, _, hl⟩ <;> cases hl
  | chain => rcases hpc with ⟨l, hl⟩ | ⟨_, _, _, hl⟩ <;> cases hl
  | alloc hv hL hm hl hn hR => exact ⟨_, Nat.le_trans (req_size hv hR).1 (key rfl)⟩
  | resize hv hL hm hl hf hn hR => exact ⟨_, Nat.le_trans (req_size hv hR).1 (key rfl)⟩

theorem SpanGrown.push {m n : Nat} {L : List (Nat × Nat)} (h : SpanGrown m L) {b : Slice} (hb : baseSize L m n + 32 ≤ b.len) :
    SpanGrown m ((b.addr, b.len) :: L) := by
  cases L with
  | nil => simp only [baseSize] at hb; simp only [SpanGrown]; omega
  | cons c t => simp only [baseSize] at hb; exact ⟨by simp only; omega, h⟩

theorem PReach.grown {p0 ps : PS} {K : PBook} (h : PReach p0 ps K) {i p L} (hL : ps.Chunks i L) (hp : ps.px i = some p) :
    SpanGrown p.a.minChunk L := by
  obtain ⟨h0, tr, hr⟩ := h
  induction hr generalizing p L with
  | nil => rw [h0.px i] at hp; cases hp
  | @snoc tr s K1 a r s' K' hr hl hs ha ih =>
    have hre : PReach p0 s K1 := ⟨h0, _, hr⟩
    cases hps : s.px i with
    | none =>
      have hnew : ∃ k, a = .spawn i k := by
        apply Classical.byContradiction
        intro hno
        by_cases hw : a.who = some i
        · cases a with
          | shared a =>
            cases a with
            | go t ch =>
              injection hw with hw
              subst hw
              simp only [pstep] at hs
              obtain ⟨x, _, hs⟩ := ebind_inv hs
              rcases x with _ | ⟨_ | v, q⟩
              · cases hs
              · injection hs with hs; injection hs with hs; injection hs with _ hs; subst hs
                rw [show ({ s with s := q } : PS).px t = s.px t from rfl, hps] at hp; cases hp
              · simp only [hps] at hs
                injection hs with hs; injection hs with hs; injection hs with _ hs; subst hs
                rw [show ({ s with s := q } : PS).px t = s.px t from rfl, hps] at hp; cases hp
            | call | write | reset | resetUnchecked | resetFinal => cases hw
          | spawn j k => injection hw with hw; subst hw; exact hno ⟨k, rfl⟩
          | updateMax | sync => cases hw
          | _ => injection hw with hw; subst hw; simp only [pstep, hps] at hs; cases hs
        · rw [pstep_px hs hw, hps] at hp; cases hp
      obtain ⟨k, rfl⟩ := hnew
      obtain ⟨q, hq, hO⟩ := C73_chunks_new hs
      obtain ⟨q', hq', hO'⟩ := hL
      rw [hq] at hq'
      injection hq' with hq'
      subst hq'
      have := hO'.unique hO
      subst this
      trivial
    | some p1 =>
      obtain ⟨L1, hL1⟩ := C73_chunks_exist hre hps
      have hg := ih hL1 hps
      have hm := C74_minimum hs hps hp
      rw [hm]
      have hc := C73_chunks hre hl hs ha hL1 hp
      have heq : L = s.chunksAfter a i L1 := by
        obtain ⟨q, hq, hO⟩ := hc
        obtain ⟨q', hq', hO'⟩ := hL
        rw [hq] at hq'
        injection hq' with hq'
        subst hq'
        exact hO'.unique hO
      subst heq
      have htake : ∀ {j}, SpanGrown p1.a.minChunk (if i = j then L1.take 1 else L1) := by
        intro j; split
        · exact hg.take1
        · exact hg
      cases a with
      | reset j => exact htake
      | resetUnchecked j => exact htake
      | drop j =>
        simp only [PS.chunksAfter]
        split
        · trivial
        · exact hg
      | shared a =>
        cases a with
        | go t ch =>
          by_cases hti : i = t
          · subst hti
            cases hss : sstep s.s (.go i ch) with
            | error e => simp only [pstep] at hs; rw [ebind_err hss] at hs; cases hs
            | ok x =>
              rcases x with _ | ⟨_ | v, q⟩
              · simp only [pstep] at hs; rw [ebind_ok hss] at hs; cases hs
              · rw [PS.chunksAfter_inside hss]; exact hg
              · rw [PS.chunksAfter_ret hss, hps]
                cases v with
                | unit => exact hg
                | err => exact hg
                | block b =>
                  obtain ⟨KS, cs, pend, hi⟩ := hre.inv
                  have hLe : L1 = (cs i).map Chunk.span := by
                    obtain ⟨q, hq, hO⟩ := hL1
                    exact hO.unique (hi.chunks hq)
                  simp only [Option.map_some]
                  cases hpc : p1.pc with
                  | idle => exact hg
                  | chain n => exact hg
                  | alloc l =>
                    obtain ⟨n, hn⟩ := hi.given hps (.inl ⟨_, hpc⟩) hss
                    exact hg.push (n := n) (by rw [hLe]; exact hn)
                  | resize p old new =>
                    obtain ⟨n, hn⟩ := hi.given hps (.inr ⟨_, _, _, hpc⟩) hss
                    exact hg.push (n := n) (by rw [hLe]; exact hn)
          · rw [PS.chunksAfter_ne hti]; exact hg
        | call | write | reset | resetUnchecked | resetFinal => exact hg
      | _ => exact hg

/-- C74: no chunk of a proxy is smaller than the chunk size the proxy was created with. -/
theorem C74_least {p0 ps : PS} {K : PBook} (h : PReach p0 ps K) {i p L} (hL : ps.Chunks i L) (hp : ps.px i = some p) :
    ∀ c ∈ L, p.a.minChunk ≤ c.2 - 32 ∧ 32 ≤ c.2 := fun c hc => by
  have := (h.grown hL hp).least c hc
  omega

/-- C74: each chunk but the oldest has 64 bytes more than the proxy's chunk size, and 64 bytes more than all chunks older than its
predecessor together. -/
theorem C74_grown {p0 ps : PS} {K : PBook} (h : PReach p0 ps K) {i newer c d rest} {p : Proxy}
    (hL : ps.Chunks i (newer ++ c :: d :: rest)) (hp : ps.px i = some p) : max p.a.minChunk (spanCapacity rest) + 64 ≤ c.2 - 32 := by
  have := (h.grown hL hp).at
  omega

/-- C74: the number of chunks of a proxy is logarithmic in their capacity. -/
theorem C74_number {p0 ps : PS} {K : PBook} (h : PReach p0 ps K) {i L} (hL : ps.Chunks i L) :
    64 * fib (L.length + 1) ≤ spanCapacity L + 64 := by
  obtain ⟨p, hp, _⟩ := id hL
  exact (h.grown hL hp).fib

/-- C74: over any history in which a proxy is not dropped it keeps the chunk size it has. -/
theorem C74_minimum_history {ps ps2 : PS} {K K2 : PBook} {tr} (hr : PRun ps K tr ps2 K2) {i : Nat} {p : Proxy} (hp : ps.px i = some p)
    (hd : ∀ r, (.drop i, r) ∉ tr) : ∃ p2, ps2.px i = some p2 ∧ p2.a.minChunk = p.a.minChunk := by
  induction hr with
  | nil => exact ⟨p, hp, rfl⟩
  | @snoc tr s K1 a r s' K' hr hl hs ha ih =>
    obtain ⟨p2, h1, h2⟩ := ih fun r hm => hd r (List.mem_append_left _ hm)
    have hne : a ≠ .drop i := by
      rintro rfl
      exact hd r (List.mem_append_right _ (List.mem_singleton_self _))
    obtain ⟨p3, h3, h4⟩ := pstep_stays hs h1 hne
    exact ⟨p3, h3, h4.trans h2⟩

/-- C74 with C27: whatever a proxy had as its last chunk when it was dropped or reset, every chunk of every proxy created with
knowledge of that is at least as large, as long as that proxy lives. -/
theorem C74_remembered {p0 ps ps1 ps2 ps3 ps4 : PS} {K K1 K2 K3 K4 : PBook} (h : PReach p0 ps K) {i j k : Nat} {a : PAct}
    (ha : a = .reset i ∨ a = .drop i) (hl : PLegal K a) {r} (hs : pstep ps a = .ok (some (r, ps1)))
    (hK : PAfter ps.s.w.mem K a r K1) {tr} (hr : PRun ps1 K1 tr ps2 K2) (hk : Knows tr i j) {r'}
    (hsl : PLegal K2 (.spawn j k)) (hsp : pstep ps2 (.spawn j k) = .ok (some (r', ps3))) (hK3 : PAfter ps2.s.w.mem K2 (.spawn j k) r' K3)
    {tr4} (hr4 : PRun ps3 K3 tr4 ps4 K4) (hd : ∀ r, (.drop j, r) ∉ tr4) {L} (hL : ps4.Chunks j L) :
    ∀ c ∈ L, ps.lastCap i ≤ c.2 - 32 := by
  obtain ⟨m, h1, h2⟩ := C27_new_proxy h ha hl hs hK hr hk hsp
  obtain ⟨p4, h3, h4⟩ := C74_minimum_history hr4 h1 hd
  obtain ⟨h0, tr0, hr0⟩ := h
  have hre : PReach p0 ps4 K4 := ⟨h0, _, ((((hr0.snoc hl hs hK).trans hr).snoc hsl hsp hK3).trans hr4)⟩
  intro c hc
  have := (C74_least hre hL h3 c hc).1
  simp only at h4
  omega

/-! ### The hypotheses are met -/

/-- Check of `Older` (for the examples). -/
def olderB (m : Nat → Byte) : Nat → List (Nat × Nat) → Bool
  | c, [] => decide (c = 0)
  | c, (a, n) :: L => decide (c ≠ 0) && decide (a = c) && match decodeWord m (c + 8), decodeWord m (c + 16) with
    | some e, some prev => decide (n = e - c) && olderB m prev L
    | _, _ => false

theorem olderB_sound {m : Nat → Byte} : ∀ {c L}, olderB m c L = true → Older m c L
  | c, [], h => by
    simp only [olderB, decide_eq_true_eq] at h
    subst h; exact .nil
  | c, (a, n) :: L, h => by
    simp only [olderB, Bool.and_eq_true, decide_eq_true_eq] at h
    obtain ⟨⟨h1, h2⟩, h3⟩ := h
    split at h3
    · rename_i e prev he hp
      simp only [Bool.and_eq_true, decide_eq_true_eq] at h3
      obtain ⟨h3, h4⟩ := h3
      subst h2; subst h3
      exact .cons h1 he hp (olderB_sound h4)
    · cases h3

/-- Check of `PS.Chunks` and of the chunk size of the proxy (for the examples). -/
def PS.chunksB (ps : PS) (i m : Nat) (L : List (Nat × Nat)) : Bool :=
  match ps.px i with
  | some p => decide (p.a.minChunk = m) && olderB ps.s.w.mem p.a.root L
  | none => false

theorem PS.chunksB_sound {ps : PS} {i m : Nat} {L} (h : ps.chunksB i m L = true) :
    ∃ p, ps.px i = some p ∧ p.a.minChunk = m ∧ ps.Chunks i L := by
  unfold PS.chunksB at h
  split at h
  · rename_i p hp
    simp only [Bool.and_eq_true, decide_eq_true_eq] at h
    exact ⟨p, hp, h.1, p, hp, olderB_sound h.2⟩
  · cases h

theorem pexecAll_one {ps K a rs ps' K'} (h : pexecAll ps K [a] = some (rs, ps', K')) :
    ∃ r, rs = [r] ∧ PLegal K a ∧ pstep ps a = .ok (some (r, ps')) ∧ PAfter ps.s.w.mem K a r K' := by
  unfold pexecAll at h
  split at h
  · rename_i r ps1 h1
    split at h
    · cases h
    · rename_i K1 h2
      simp only [pexecAll, Option.some.injEq, Prod.mk.injEq] at h
      obtain ⟨rfl, rfl, rfl⟩ := h
      exact ⟨r, rfl, (pbook_sound h2).1, h1, (pbook_sound h2).2⟩
  · cases h

/-- Proxy 0 gets a chunk of 480 bytes. -/
def gdemo1 : List PAct := [.spawn 0 0, .allocate 0 ⟨300, 8⟩] ++ pgoes 0 5
/-- Proxy 3 gets three chunks. -/
def gdemo3 : List PAct := [.allocate 3 ⟨100, 8⟩] ++ pgoes 3 4 ++ [.allocate 3 ⟨900, 8⟩] ++ pgoes 3 4 ++ [.allocate 3 ⟨2000, 8⟩] ++ pgoes 3 4

/-- The hypotheses of `C74_least`, `C74_grown` and `C74_number` are met by proxy 3 with three chunks, after it was created with chunk
size 480. -/
example : ∃ p0 ps K p, PReach p0 ps K ∧ ps.px 3 = some p ∧ p.a.minChunk = 480 ∧
    ps.Chunks 3 ([] ++ (68640, 4096) :: (66592, 2048) :: [(66080, 512)]) := by
  obtain ⟨rs, ps, K, h0, hr, _, hf⟩ := of_pdemoAt (sizes := [16384, 16384]) (m := 1024)
    (as := gdemo1 ++ [.drop 0, .sync 0 3, .spawn 3 0] ++ gdemo3)
    (f := fun _ ps _ => ps.chunksB 3 480 [(68640, 4096), (66592, 2048), (66080, 512)]) (by decide +kernel)
  obtain ⟨p, h1, h2, h3⟩ := PS.chunksB_sound hf
  exact ⟨_, ps, K, p, ⟨h0, _, hr⟩, h1, h2, h3⟩

/-- The hypotheses of `C74_request` are met, by `allocate` and by `resize`: proxy 3 has two chunks and is asked for more than there is
room for. -/
example : ∃ p0 ps K p ps1 ps2, PReach p0 ps K ∧ ps.px 3 = some p ∧ p.a.minChunk = 480 ∧ ps.Chunks 3 [(66592, 2048), (66080, 512)] ∧
    PLegal K (.allocate 3 ⟨2000, 8⟩) ∧ pstep ps (.allocate 3 ⟨2000, 8⟩) = .ok (some (none, ps1)) ∧
    PLegal K (.resize 3 66112 ⟨100, 8⟩ ⟨2000, 8⟩) ∧ pstep ps (.resize 3 66112 ⟨100, 8⟩ ⟨2000, 8⟩) = .ok (some (none, ps2)) := by
  obtain ⟨rs, ps, K, h0, hr, _, hf⟩ := of_pdemoAt (sizes := [16384, 16384]) (m := 1024)
    (as := gdemo1 ++ [.drop 0, .sync 0 3, .spawn 3 0] ++ gdemo3.take 10)
    (f := fun _ ps K => ps.chunksB 3 480 [(66592, 2048), (66080, 512)] &&
      (match pexecAll ps K [.allocate 3 ⟨2000, 8⟩] with | some ([none], _, _) => true | _ => false) &&
      (match pexecAll ps K [.resize 3 66112 ⟨100, 8⟩ ⟨2000, 8⟩] with | some ([none], _, _) => true | _ => false)) (by decide +kernel)
  simp only [Bool.and_eq_true] at hf
  obtain ⟨⟨h1, h2⟩, h3⟩ := hf
  obtain ⟨p, e1, e2, e3⟩ := PS.chunksB_sound h1
  split at h2
  · rename_i ps1 K1 g1
    split at h3
    · rename_i ps2 K2 g2
      obtain ⟨r1, f1, f2, f3, f4⟩ := pexecAll_one g1
      obtain ⟨r2, i1, i2, i3, i4⟩ := pexecAll_one g2
      injection f1 with f1; injection i1 with i1
      subst f1; subst i1
      exact ⟨_, ps, K, p, ps1, ps2, ⟨h0, _, hr⟩, e1, e2, e3, f2, f3, i2, i3⟩
    · cases h3
  · cases h2

/-- The hypotheses of `C74_remembered` are met: proxy 0 has a chunk of 480 bytes and is dropped, 3 learns of it, creates a proxy, and
that proxy gets three chunks. -/
example : ∃ p0 ps K ps1 K1 ps2 K2 ps3 K3 ps4 K4 r r' tr tr4, PReach p0 ps K ∧ ps.lastCap 0 = 480 ∧ PLegal K (.drop 0) ∧
    pstep ps (.drop 0) = .ok (some (r, ps1)) ∧ PAfter ps.s.w.mem K (.drop 0) r K1 ∧ PRun ps1 K1 tr ps2 K2 ∧ Knows tr 0 3 ∧
    PLegal K2 (.spawn 3 0) ∧ pstep ps2 (.spawn 3 0) = .ok (some (r', ps3)) ∧ PAfter ps2.s.w.mem K2 (.spawn 3 0) r' K3 ∧
    PRun ps3 K3 tr4 ps4 K4 ∧ (∀ r, (.drop 3, r) ∉ tr4) ∧ ps4.Chunks 3 [(68640, 4096), (66592, 2048), (66080, 512)] := by
  obtain ⟨rs, ps, K, h0, hr, _, hf⟩ := of_pdemoAt (sizes := [16384, 16384]) (m := 1024) (as := gdemo1)
    (f := fun _ ps K => decide (ps.lastCap 0 = 480) &&
      match pexecAll ps K [.drop 0] with
      | none => false
      | some (_, ps1, K1) => match pexecAll ps1 K1 [.sync 0 3] with
        | none => false
        | some (_, ps2, K2) => match pexecAll ps2 K2 [.spawn 3 0] with
          | none => false
          | some (_, ps3, K3) => match pexecAll ps3 K3 gdemo3 with
            | none => false
            | some (_, ps4, _) => ps4.chunksB 3 480 [(68640, 4096), (66592, 2048), (66080, 512)]) (by decide +kernel)
  simp only [Bool.and_eq_true, decide_eq_true_eq] at hf
  obtain ⟨hcap, hf⟩ := hf
  split at hf
  · cases hf
  · rename_i rs1 ps1 K1 g1
    split at hf
    · cases hf
    · rename_i rs2 ps2 K2 g2
      split at hf
      · cases hf
      · rename_i rs3 ps3 K3 g3
        split at hf
        · cases hf
        · rename_i rs4 ps4 K4 g4
          obtain ⟨r1, _, f2, f3, f4⟩ := pexecAll_one g1
          obtain ⟨r2, _, i2, i3, i4⟩ := pexecAll_one g2
          obtain ⟨r3, _, j2, j3, j4⟩ := pexecAll_one g3
          obtain ⟨p, _, _, e3⟩ := PS.chunksB_sound hf
          refine ⟨_, ps, K, ps1, K1, ps2, K2, ps3, K3, ps4, K4, r1, r3, _, _, ⟨h0, _, hr⟩, hcap, f2, f3, f4,
            .snoc (tr := []) .nil i2 i3 i4, .sync (tr := []) .self, j2, j3, j4, (pexecAll_sound g4).1, ?_, e3⟩
          intro r hm
          have h1 := (List.of_mem_zip hm).1
          have h2 : PAct.drop 3 ∉ gdemo3 := by decide
          exact h2 h1

end Blink
