import Verif.Proofs.Twin
import Verif.Spec.ProxyView
import Verif.Props.ProxyGrowth
import Verif.Props.ProxyRoom
/-
  A `BlinkAlloc` of one's own that goes through the same calls as a proxy.
-/
namespace Blink

/-! ### Chunks up to the length that was asked for -/

/-- What the header of a chunk says. -/
def Chunk.core (c : Chunk) : Nat × Nat × Nat × Nat := (c.start, c.cursor, c.end_, c.cum)

/-- The same chunks. -/
def Alike (cs cs' : List Chunk) : Prop := cs.map Chunk.core = cs'.map Chunk.core

theorem Alike.symm {cs cs'} (h : Alike cs cs') : Alike cs' cs := Eq.symm h

theorem Rep.alike {m : Nat → Byte} {cs cs' : List Chunk} (h : Rep m cs) (h' : Rep m cs') (hok : ∀ c ∈ cs, ChunkOK c)
    (hok' : ∀ c ∈ cs', ChunkOK c) (hr : rootOf cs = rootOf cs') : Alike cs cs' := by
  induction cs generalizing cs' with
  | nil =>
    cases cs' with
    | nil => rfl
    | cons c' t' => exact absurd hr.symm (by rw [show rootOf [] = 0 from rfl, rootOf_eq_zero hok']; simp)
  | cons c t ih =>
    cases cs' with
    | nil => exact absurd hr (by rw [show rootOf [] = 0 from rfl, rootOf_eq_zero hok]; simp)
    | cons c' t' =>
      have hst : c.start = c'.start := hr
      obtain ⟨⟨a1, a2, a3, a4⟩, a5⟩ := h
      obtain ⟨⟨b1, b2, b3, b4⟩, b5⟩ := h'
      rw [← hst] at b1 b2 b3 b4
      have word : ∀ {a u v}, WordAt m a u → WordAt m a v → u = v := by
        intro a u v hu hv
        have h1 := decodeWord_of hu
        rw [decodeWord_of hv] at h1
        injection h1 with h1
        exact h1.symm
      have e1 := word a1 b1
      have e2 := word a2 b2
      have e3 := word a3 b3
      have e4 := word a4 b4
      have := ih a5 b5 (fun d hd => hok d (List.mem_cons_of_mem _ hd)) (fun d hd => hok' d (List.mem_cons_of_mem _ hd)) e3
      show c.core :: _ = c'.core :: _
      rw [show List.map Chunk.core t = List.map Chunk.core t' from this, show c.core = c'.core by
        simp only [Chunk.core]; rw [hst, e1, e2, e4]]

theorem Alike.mem {cs cs'} (h : Alike cs cs') {c} (hc : c ∈ cs) :
    ∃ d ∈ cs', d.start = c.start ∧ d.cursor = c.cursor ∧ d.end_ = c.end_ ∧ d.cum = c.cum := by
  have : c.core ∈ cs'.map Chunk.core := by rw [← h]; exact List.mem_map_of_mem hc
  obtain ⟨d, hd, he⟩ := List.mem_map.mp this
  simp only [Chunk.core] at he
  injection he with e1 he; injection he with e2 he; injection he with e3 e4
  exact ⟨d, hd, e1, e2, e3, e4⟩

theorem Alike.cons {c cs cs'} (h : Alike (c :: cs) cs') :
    ∃ d ds, cs' = d :: ds ∧ d.start = c.start ∧ d.cursor = c.cursor ∧ d.end_ = c.end_ ∧ d.cum = c.cum ∧ Alike cs ds := by
  cases cs' with
  | nil => cases h
  | cons d ds =>
    simp only [Alike, List.map_cons, Chunk.core] at h
    injection h with he h2
    injection he with e1 he; injection he with e2 he; injection he with e3 e4
    exact ⟨d, ds, rfl, e1.symm, e2.symm, e3.symm, e4.symm, h2⟩

theorem Alike.inCs {cs cs'} (h : Alike cs cs') {x} (hx : InCs cs x) : InCs cs' x := by
  obtain ⟨c, hc, h1, h2⟩ := hx
  obtain ⟨d, hd, e1, e2, e3, e4⟩ := h.mem hc
  exact ⟨d, hd, by omega, by omega⟩

theorem Alike.acc {w cs cs'} (h : Alike cs cs') (ha : Acc w cs') : Acc w cs := by
  intro c hc
  obtain ⟨d, hd, e1, e2, e3, e4⟩ := h.mem hc
  obtain ⟨b, hb, h1, h2⟩ := ha d hd
  exact ⟨b, hb, by omega, by omega⟩

theorem Alike.noFit {cs cs' l} (h : Alike cs cs') (hn : NoFit cs' l) : NoFit cs l := by
  intro c t he
  subst he
  obtain ⟨d, ds, he, e1, e2, e3, e4, _⟩ := h.cons
  have := hn d ds he
  rw [e2, e3] at this
  exact this

theorem Alike.noFitResize {cs cs' p old new} (h : Alike cs cs') (hn : NoFitResize cs' p old new) : NoFitResize cs p old new := by
  obtain ⟨n1, n2, n3⟩ := hn
  refine ⟨n1, ?_, h.noFit n3⟩
  intro c t he
  subst he
  obtain ⟨d, ds, he, e1, e2, e3, e4, _⟩ := h.cons
  have := n2 d ds he
  rw [e2, e3] at this
  exact this

theorem Alike.rootCum {cs cs'} (h : Alike cs cs') : rootCum cs = rootCum cs' := by
  cases cs with
  | nil =>
    cases cs' with
    | nil => rfl
    | cons => cases h
  | cons c t =>
    obtain ⟨d, ds, he, e1, e2, e3, e4, _⟩ := h.cons
    subst he
    show some c.cum = some d.cum
    rw [e4]

/-! ### The `BlinkAlloc` and the proxy side by side -/

/-- The `BlinkAlloc` `s` (started as `s0`, blocks `L`, chunks `cs`) agrees with proxy `p`, which has number `i`. -/
structure Mirror (ps : PS) (K : PBook) (i : Nat) (p : Proxy) (calls : List (Op × Resp)) (n : Nat) (s0 : St) (tr : List (Op × Resp))
    (s : St) (L : List Owned) (cs : List Chunk) : Prop where
  held0 : s0.w.held = []
  run : Run s0 [] tr s L
  inv : Inv s0 s cs L
  calls : callsIn tr = calls
  a : s.a = p.a
  arena : VInv ps.s.w cs
  led : L.Perm (K.blocks i)
  body : SameBody cs ps.s.w.mem s.w.mem
  count : s.w.calls = n
  top : s.w.top = ps.s.w.top

/-- What every proxy has. -/
theorem PInv.exists_ {p0 ps K KS cs pend} (h : PInv p0 ps K KS cs pend) {i p} (hp : ps.px i = some p) :
    VInv ps.s.w (cs i) ∧ p.a.root = rootOf (cs i) ∧ p.a.minChunk ≤ HUGE := by
  have hx := h.px i
  rw [hp] at hx
  generalize K.live i = z1 at hx
  generalize K.led i = z2 at hx
  generalize K.pbusy i = z3 at hx
  generalize K.direct.busy i = z4 at hx
  generalize KS.busy i = z5 at hx
  generalize pend i = z6 at hx
  generalize cs i = z7 at *
  cases hx with
  | idle hv _ hm => exact ⟨hv, rfl, hm⟩
  | alloc hv _ hm => exact ⟨hv, rfl, hm⟩
  | resize hv _ hm => exact ⟨hv, rfl, hm⟩
  | chain hv _ hm => exact ⟨hv, rfl, hm⟩

namespace Mirror

variable {p0 ps ps' : PS} {K K' : PBook} {KS : Book} {i : Nat} {p p' : Proxy} {calls : List (Op × Resp)} {n : Nat} {s0 : St}
  {tr : List (Op × Resp)} {s : St} {L : List Owned} {cs : List Chunk} {csP pend : Nat → List Chunk}

theorem alike (M : Mirror ps K i p calls n s0 tr s L cs) (h : PInv p0 ps K KS csP pend) (hp : ps.px i = some p) : Alike cs (csP i) := by
  obtain ⟨h1, h2, _⟩ := h.exists_ hp
  exact Rep.alike M.arena.rep h1.rep M.arena.ok h1.ok (by rw [← M.inv.root, M.a, h2])

theorem eta (M : Mirror ps K i p calls n s0 tr s L cs) : p.a = ⟨rootOf cs, s.a.minChunk⟩ := by
  rw [← M.a, ← M.inv.root]

theorem ainv (M : Mirror ps K i p calls n s0 tr s L cs) : AInv (VW ps.s.w cs) cs s0.w.held := by
  rw [M.held0]; exact M.arena

/-- The same if the underlying allocator refuses everything. -/
theorem deaf (M : Mirror ps K i p calls n s0 tr s L cs) : AInv { VW ps.s.w cs with oracle := fun _ => none } cs s0.w.held := by
  have := M.ainv
  exact ⟨this.rep, this.ok, this.perm, ⟨this.held.top, this.held.dis, this.held.rng⟩, this.cum⟩

/-- Nothing happens to the chunks of the proxy. -/
theorem frame {calls'} (M : Mirror ps K i p calls n s0 tr s L cs) (h : PInv p0 ps K KS csP pend) (hp : ps.px i = some p)
    (hk : ∀ x, InCs (csP i ++ pend i) x → ps'.s.w.mem x = ps.s.w.mem x) (ht : ps'.s.w.top = ps.s.w.top)
    (ha : p'.a = p.a) (hb : (K.blocks i).Perm (K'.blocks i)) (hc : calls' = calls) : Mirror ps' K' i p' calls' n s0 tr s L cs := by
  have hal := M.alike h hp
  have key : ∀ x, InCs cs x → ps'.s.w.mem x = ps.s.w.mem x := fun x hx => hk x (hal.inCs hx).left
  refine ⟨M.held0, M.run, M.inv, hc ▸ M.calls, by rw [ha]; exact M.a, ?_, M.led.trans hb, ?_, M.count, by rw [ht]; exact M.top⟩
  · exact M.arena.frame ht fun c hc x h1 h2 => key x ⟨c, hc, h1, h2⟩
  · rintro x ⟨c, hc, h1, h2⟩
    rw [key x ⟨c, hc, by omega, h2⟩]
    exact M.body x ⟨c, hc, h1, h2⟩

/-- The `BlinkAlloc` makes a call, the proxy has made it too. -/
theorem call {op r s' L' cs' calls' n'} (M : Mirror ps K i p calls n s0 tr s L cs) (hl : Legal L op) (hs : Blink.step s op = .ok (r, s'))
    (ha : After L op r L') (hi : Inv s0 s' cs' L') (hsa : s'.a = p'.a) (hv : VInv ps'.s.w cs') (hL : L'.Perm (K'.blocks i))
    (hb : SameBody cs' ps'.s.w.mem s'.w.mem) (ht : ps'.s.w.top = ps.s.w.top) (hc : calls' = calls ++ callsIn [(op, r)])
    (hn : s'.w.calls = n') : Mirror ps' K' i p' calls' n' s0 (tr ++ [(op, r)]) s' L' cs' where
  held0 := M.held0
  run := M.run.snoc hl hs ha
  inv := hi
  calls := by rw [hc, ← M.calls]; simp [callsIn]
  a := hsa
  arena := hv
  led := hL
  body := hb
  count := hn
  top := by rw [hi.top, ← M.inv.top, ht, M.top]

end Mirror

/-! ### Fast paths do not ask -/

theorem AllocRes.fits {w cs m l b w' cs'} (h : AllocRes w cs m l (some b) w' cs') (hlen : cs'.length = cs.length) : ¬ NoFit cs l := by
  intro hn
  cases h with
  | fast c t a hcs hb => exact bump_noFit hn hcs hb
  | slow _ h =>
    cases h with
    | ok => simp at hlen

theorem ResizeRes.fits {w cs m p old new b w' cs'} (h : ResizeRes w cs m p old new (some b) w' cs') (hlen : cs'.length = cs.length) :
    ¬ NoFitResize cs p old new := by
  intro hn
  cases h with
  | same ha hs => exact hn.1 ⟨ha, hs⟩
  | grow c t hcs ha hs htip hfit => exact hn.2.1 c t hcs ⟨ha, htip, hfit⟩
  | move _ _ _ _ _ h => exact h.fits hlen hn.2.2

/-- The block a new chunk was built in. -/
theorem AllocRes.newest {w cs m l b w' c} (h : AllocRes w cs m l (some b) w' (c :: cs)) :
    ∃ sl, w.oracle w.calls = some sl ∧ c.start = sl.addr ∧ c.end_ = sl.addr + sl.len := by
  generalize hc : c :: cs = cs' at h
  cases h with
  | fast d t a hcs hb =>
    have := congrArg List.length hc
    rw [hcs] at this
    simp at this
  | slow _ h =>
    generalize ho : some b = o at h
    cases h with
    | tooBig => cases ho
    | refused => cases ho
    | ok R sl m' h1 h2 =>
      injection hc with hc _
      subst hc
      exact ⟨sl, h2, rfl, rfl⟩

/-! ### Calls of the proxy -/

/-- A call that came back. -/
def retOf (op : Op) : Option Resp → List (Op × Resp)
  | some r => [(op, r)]
  | none => []

namespace Mirror

variable {p0 ps ps' : PS} {K K' : PBook} {KS : Book} {i : Nat} {p p' : Proxy} {calls : List (Op × Resp)} {n : Nat} {s0 : St}
  {tr : List (Op × Resp)} {s : St} {L : List Owned} {cs : List Chunk} {csP pend : Nat → List Chunk}

theorem idle (M : Mirror ps K i p calls n s0 tr s L cs) (h : PInv p0 ps K KS csP pend) (hp : ps.px i = some p) (hr : K.Ready i) :
    ps.px i = some ⟨⟨rootOf cs, s.a.minChunk⟩, .idle⟩ ∧ s.a.minChunk ≤ HUGE ∧ Acc ps.s.w cs ∧ K.blocks i = K.led i := by
  obtain ⟨r1, r2, r3⟩ := hr
  have hx := h.px i
  rw [r1, r2] at hx
  obtain ⟨m, hpx, hv, hL, hm, _⟩ := hx.ready
  rw [hp] at hpx
  injection hpx with hpx
  have he := M.eta
  rw [hpx] at he
  injection he with e1 e2
  refine ⟨?_, by omega, (M.alike h hp).acc (h.acc_left i), by simp [PBook.blocks, r2]⟩
  rw [hp, hpx, e1, e2]

theorem allocate (M : Mirror ps K i p calls n s0 tr s L cs) (h : PInv p0 ps K KS csP pend) (hp : ps.px i = some p) (hr : K.Ready i)
    {l : Layout} (hl : l.Modest) {r} (hs : pstep ps (.allocate i l) = .ok (some (r, ps')))
    (ha : PAfter ps.s.w.mem K (.allocate i l) r K') (hp' : ps'.px i = some p') :
    ∃ tr' s' L' cs', Mirror ps' K' i p' (calls ++ retOf (.allocate l) r) n s0 tr' s' L' cs' := by
  obtain ⟨hpx, hm, hacc, hbl⟩ := M.idle h hp hr
  have hv := M.arena
  simp only [pstep, hpx] at hs
  rcases allocFast_core hv hacc hl.1 (m := s.a.minChunk) with ⟨b, w', cs', he, hres, hA, ht, hown, hroot, hmem⟩ | ⟨he, hno⟩
  · rw [ebind_ok he] at hs
    injection hs with hs; injection hs with hs; injection hs with e1 e2
    subst e1; subst e2
    have hfit := hres.fits (by have := congrArg List.length hown; simpa using this)
    obtain ⟨s', t1, t2, t3, t4, t5⟩ := M.inv.twin_allocate hl.1 M.ainv M.top.symm hres (fun hn => absurd hn hfit) M.body
    cases ha
    rw [PS.setPx_same] at hp'
    injection hp' with hp'; subst hp'
    refine ⟨_, s', _, cs', M.call (.allocate hl.1) t1 .allocOk (t3 _ .allocOk) (by rw [t2, hroot]) (VInv.of hA rfl ht) ?_ t4 rfl rfl
      (by rw [t5.calls.1 hfit, M.count])⟩
    simp only [PBook.enter, PBook.blocks, hr.2.1, put_same, pgets]
    rw [hbl.symm]
    exact M.led.cons _
  · rw [ebind_ok he] at hs
    simp only at hs
    rw [ebind_ok (chunkRequest_core hv hacc (needBound hv h.top hm hl) fun R hR => reqBound hv h.top hm hl hR)] at hs
    obtain ⟨R, hR⟩ := req_exists hv h.top hm hl
    simp only [hR] at hs
    unfold PS.ask at hs
    split at hs
    · injection hs with hs; injection hs with hs; injection hs with e1 e2
      subst e1; subst e2
      cases ha
      rw [PS.setPx_same] at hp'
      injection hp' with hp'; subst hp'
      refine ⟨tr, s, L, cs, ?_⟩
      refine M.frame h hp (fun _ _ => rfl) rfl M.eta.symm ?_ (by simp [retOf])
      simp [PBook.enter, PBook.blocks, hr.2.1, put_same]
    · cases hs

theorem resize (M : Mirror ps K i p calls n s0 tr s L cs) (h : PInv p0 ps K KS csP pend) (hp : ps.px i = some p) (hr : K.Ready i)
    {q : Nat} {old new : Layout} {b : Owned} (hb : b ∈ K.led i) (hf : b.Fits q old) (hl : new.Modest) {r}
    (hs : pstep ps (.resize i q old new) = .ok (some (r, ps')))
    (ha : PAfter ps.s.w.mem K (.resize i q old new) r K') (hp' : ps'.px i = some p') :
    ∃ tr' s' L' cs', Mirror ps' K' i p' (calls ++ retOf (.resize q old new) r) n s0 tr' s' L' cs' := by
  obtain ⟨hpx, hm, hacc, hbl⟩ := M.idle h hp hr
  have hv := M.arena
  have hbL : b ∈ L := M.led.mem_iff.mpr (by rw [hbl]; exact hb)
  have hu : InUsed cs q old.size := by
    obtain ⟨f1, f2, f3, f4⟩ := hf
    exact (M.inv.led.each b hbL).2.2.2.sub (by omega) (by omega)
  simp only [pstep, hpx] at hs
  rcases resizeFast_core hv hacc hl.1 hu (m := s.a.minChunk) with ⟨c, w', cs', he, hres, hA, ht, hown, hroot, hmem⟩ | ⟨he, hno⟩
  · rw [ebind_ok he] at hs
    injection hs with hs; injection hs with hs; injection hs with e1 e2
    subst e1; subst e2
    have hfit := hres.fits (by have := congrArg List.length hown; simpa using this)
    obtain ⟨s', t1, t2, t3, t4, t5⟩ := M.inv.twin_resize hbL hf hl.1 M.ainv M.top.symm hres (fun hn => absurd hn hfit) M.body
    cases ha with
    | @resize _ b' _ _ _ _ hb' hf' =>
    rw [PS.setPx_same] at hp'
    injection hp' with hp'; subst hp'
    have hb'L : b' ∈ L := M.led.mem_iff.mpr (by rw [hbl]; exact hb')
    refine ⟨_, s', _, cs', M.call (.resize hbL hf hl.1) t1 (.resizeOk hb'L hf') (t3 _ (.resizeOk hb'L hf')) (by rw [t2, hroot])
      (VInv.of hA rfl ht) ?_ t4 rfl rfl (by rw [t5.calls.1 hfit, M.count])⟩
    simp only [PBook.enter, PBook.blocks, hr.2.1, put_same, pgets]
    have := (M.led.erase b').cons (Owned.of c new)
    rw [hbl] at this
    exact this
  · rw [ebind_ok he] at hs
    simp only at hs
    rw [ebind_ok (chunkRequest_core hv hacc (needBound hv h.top hm hl) fun R hR => reqBound hv h.top hm hl hR)] at hs
    obtain ⟨R, hR⟩ := req_exists hv h.top hm hl
    simp only [hR] at hs
    unfold PS.ask at hs
    split at hs
    · injection hs with hs; injection hs with hs; injection hs with e1 e2
      subst e1; subst e2
      cases ha with
      | @resize _ b' _ _ _ _ hb' hf' =>
      rw [PS.setPx_same] at hp'
      injection hp' with hp'; subst hp'
      refine ⟨tr, s, L, cs, ?_⟩
      refine M.frame h hp (fun _ _ => rfl) rfl M.eta.symm ?_ (by simp [retOf])
      simp only [PBook.enter, PBook.blocks, hr.2.1, put_same]
      exact List.perm_cons_erase hb'
    · cases hs

theorem deallocate (M : Mirror ps K i p calls n s0 tr s L cs) (h : PInv p0 ps K KS csP pend) (hp : ps.px i = some p) (hr : K.Ready i)
    {q len : Nat} {b : Owned} (hb : b ∈ K.led i) (hf : b.addr = q ∧ b.size ≤ len ∧ len ≤ b.len) {r}
    (hs : pstep ps (.deallocate i q len) = .ok (some (r, ps')))
    (ha : PAfter ps.s.w.mem K (.deallocate i q len) r K') (hp' : ps'.px i = some p') :
    ∃ tr' s' L' cs', Mirror ps' K' i p' (calls ++ retOf (.deallocate q len) r) n s0 tr' s' L' cs' := by
  obtain ⟨hpx, hm, hacc, hbl⟩ := M.idle h hp hr
  have hbL : b ∈ L := M.led.mem_iff.mpr (by rw [hbl]; exact hb)
  have hu : InUsed cs q len := (M.inv.led.each b hbL).2.2.2.sub (by omega) (by omega)
  simp only [pstep, hpx] at hs
  rw [ebind_ok (deallocate_core M.arena hacc hu)] at hs
  injection hs with hs; injection hs with hs; injection hs with e1 e2
  subst e1; subst e2
  cases ha with
  | @deallocate _ b' _ _ hb' hf' =>
  rw [PS.setPx_same] at hp'
  injection hp' with hp'; subst hp'
  have hb'L : b' ∈ L := M.led.mem_iff.mpr (by rw [hbl]; exact hb')
  rcases M.inv.step' (.deallocate hbL hf) with ⟨e, ⟨_, hn⟩, _⟩ | ⟨r2, s', cs2, he, hres, hi⟩
  · exact hn.elim
  · obtain ⟨h1, h2, h3⟩ := hres
    subst h1; subst h3
    have hi' := hi _ (.deallocate hb'L hf')
    refine ⟨_, s', _, _, M.call (.deallocate hbL hf) he (.deallocate hb'L hf') hi' ?_ M.arena ?_ ?_ rfl rfl (by rw [h2, M.count])⟩
    · rw [hi'.eta, hi'.min, ← M.inv.min]
    · simp only [PBook.blocks, hr.2.1, put_same]
      have := M.led.erase b'
      rw [hbl] at this
      exact this
    · rw [h2]; exact M.body

end Mirror

/-! ### Resets -/

/-- Rewinding a chunk changes its header only. -/
theorem chunkReset_body {w : World} {c cs q} {m' : Nat → Byte} (h : VInv w (c :: cs)) (ha : Acc w (c :: cs))
    (he : chunkReset c.start w = .ok (q, { w with mem := m' })) {x} (hx : c.start + 32 ≤ x) : m' x = w.mem x := by
  obtain ⟨h1, _, _⟩ := chunkReset_spec h
  have h4 := ((Lift.chunkReset c.start).run (w := w) h1 rfl rfl (ha.lift h.ok fun _ hb => hb)).1
  rw [he] at h4
  injection h4 with h4; injection h4 with _ h4
  have h5 : m' = (rewound (VW w (c :: cs)) c).mem := congrArg World.mem h4
  rw [h5]
  simp only [rewound]
  rw [setBytes_out (by omega), setBytes_out (by omega), setBytes_out (by omega)]
  rfl

theorem freeNext_a {ps ps' : PS} {i : Nat} {a : BA} {c : Nat} {w : World} {r} (h : ps.freeNext i a c w = .ok (some (r, ps'))) :
    ∃ pc, ps'.px i = some ⟨a, pc⟩ := by
  unfold PS.freeNext at h
  split at h
  · injection h with h; injection h with h; injection h with _ h
    subst h
    exact ⟨_, PS.setPx_same _ _ _⟩
  · have ask : ∀ {w c pc}, PS.ask ps i a w c pc = .ok (some (r, ps')) → ∃ pc, ps'.px i = some ⟨a, pc⟩ := by
      intro w c pc h
      unfold PS.ask at h
      split at h
      · injection h with h; injection h with h; injection h with _ h
        subst h
        exact ⟨_, PS.setPx_same _ _ _⟩
      · cases h
    obtain ⟨⟨x1, w1⟩, _, h⟩ := ebind_inv h
    obtain ⟨⟨x2, w2⟩, _, h⟩ := ebind_inv h
    obtain ⟨⟨x3, w3⟩, _, h⟩ := ebind_inv h
    exact ask h

theorem freeNext_r {ps ps' : PS} {i : Nat} {a : BA} {c : Nat} {w : World} {r} (h : ps.freeNext i a c w = .ok (some (r, ps'))) :
    r = none ∨ r = some .unit := by
  unfold PS.freeNext at h
  split at h
  · injection h with h; injection h with h; injection h with h _
    exact .inr h.symm
  · have ask : ∀ {w c pc}, PS.ask ps i a w c pc = .ok (some (r, ps')) → r = none := by
      intro w c pc h
      unfold PS.ask at h
      split at h
      · injection h with h; injection h with h; injection h with h _
        exact h.symm
      · cases h
    obtain ⟨⟨x1, w1⟩, _, h⟩ := ebind_inv h
    obtain ⟨⟨x2, w2⟩, _, h⟩ := ebind_inv h
    obtain ⟨⟨x3, w3⟩, _, h⟩ := ebind_inv h
    exact .inl (ask h)

namespace Mirror

variable {p0 ps ps' : PS} {K K' : PBook} {KS : Book} {i : Nat} {p p' : Proxy} {calls : List (Op × Resp)} {n : Nat} {s0 : St}
  {tr : List (Op × Resp)} {s : St} {L : List Owned} {cs : List Chunk} {csP pend : Nat → List Chunk}

/-- The `BlinkAlloc` is reset, the proxy's newest chunk is rewound. -/
theorem rewind (M : Mirror ps K i p calls n s0 tr s L cs) (hacc : Acc ps.s.w cs)
    (h0 : cs = [] → ps'.s.w.mem = ps.s.w.mem) (h1 : ∀ c t, cs = c :: t → ∃ q, chunkReset c.start ps.s.w = .ok (q, { ps.s.w with mem := ps'.s.w.mem }))
    (ha : p'.a = p.a) (hb : K'.blocks i = []) (ht : ps'.s.w.top = ps.s.w.top) :
    ∃ tr' s' L' cs', Mirror ps' K' i p' (calls ++ [(.reset, .unit)]) n s0 tr' s' L' cs' := by
  obtain ⟨s', t1, t2, t3, t4, t5⟩ := M.inv.twin_reset
  have hroot : rootOf (resetChunks cs) = rootOf cs := by cases cs <;> rfl
  refine ⟨_, s', _, _, M.call .reset t1 .reset t3 (by rw [t2, hroot, ha, ← M.eta]) ?_ (by rw [hb]) ?_ ht rfl (by rw [t5, M.count])⟩
  · cases cs with
    | nil => exact M.arena.frame ht (by simp)
    | cons c t =>
      obtain ⟨q, he⟩ := h1 c t rfl
      obtain ⟨m', he', hv, _⟩ := chunkReset_core M.arena hacc
      rw [he] at he'
      injection he' with he'; injection he' with _ he'
      have : ps'.s.w.mem = m' := congrArg World.mem he'
      exact VInv.of hv this.symm ht.symm
  · rintro x ⟨d, hd, h2, h3⟩
    cases cs with
    | nil => cases hd
    | cons c t =>
      obtain ⟨q, he⟩ := h1 c t rfl
      rw [← t4 x ⟨d, hd, h2, h3⟩]
      simp only [resetChunks, List.mem_singleton] at hd
      subst hd
      simp only [Chunk.rewind] at h2 h3
      rw [chunkReset_body M.arena hacc he h2]
      exact M.body x ⟨c, List.mem_cons_self, h2, h3⟩

theorem reset (M : Mirror ps K i p calls n s0 tr s L cs) (h : PInv p0 ps K KS csP pend) (hp : ps.px i = some p) (hr : K.Ready i)
    {r} (hs : pstep ps (.reset i) = .ok (some (r, ps'))) (ha : PAfter ps.s.w.mem K (.reset i) r K') (hp' : ps'.px i = some p') :
    r = some .unit ∧ ∃ tr' s' L' cs', Mirror ps' K' i p' (calls ++ [(.reset, .unit)]) n s0 tr' s' L' cs' := by
  obtain ⟨hpx, hm, hacc, hbl⟩ := M.idle h hp hr
  simp only [pstep, hpx] at hs
  rw [ebind_ok (lastChunkSize_core M.arena hacc)] at hs
  simp only at hs
  have hbl' : ∀ m, ({ K with led := put K.led i m } : PBook).blocks i = m := by
    intro m; simp only [PBook.blocks, hr.2.1, put_same]; rfl
  have he := M.eta
  have hv := M.arena
  cases cs with
  | nil =>
    have : arenaResetLeak (rootOf []) true ps.s.w = .ok (rootOf [], ps.s.w) := rfl
    rw [ebind_ok this] at hs
    injection hs with hs; injection hs with hs; injection hs with e1 e2
    subst e1; subst e2
    cases ha
    rw [PS.setPx_same] at hp'
    injection hp' with hp'; subst hp'
    exact ⟨rfl, M.rewind hacc (fun _ => rfl) (fun _ _ h => by cases h) he.symm (hbl' []) rfl⟩
  | cons c t =>
    obtain ⟨m', hc, _⟩ := chunkReset_core hv hacc
    have hne : rootOf (c :: t) ≠ 0 := by rw [Ne, rootOf_eq_zero hv.ok]; simp
    have : arenaResetLeak (rootOf (c :: t)) true ps.s.w = .ok (c.start, { ps.s.w with mem := m' }) := by
      unfold arenaResetLeak
      rw [if_pos rfl, if_neg hne]
      exact bind_ok hc
    rw [ebind_ok this] at hs
    injection hs with hs; injection hs with hs; injection hs with e1 e2
    subst e1; subst e2
    cases ha
    rw [PS.setPx_same] at hp'
    injection hp' with hp'; subst hp'
    refine ⟨rfl, M.rewind hacc (fun h => by cases h) (fun c' t' h => ?_) he.symm (hbl' []) rfl⟩
    injection h with h _
    subst h
    exact ⟨_, hc⟩

theorem resetUnchecked (M : Mirror ps K i p calls n s0 tr s L cs) (h : PInv p0 ps K KS csP pend) (hp : ps.px i = some p) (hr : K.Ready i)
    {r} (hs : pstep ps (.resetUnchecked i) = .ok (some (r, ps'))) (ha : PAfter ps.s.w.mem K (.resetUnchecked i) r K')
    (hp' : ps'.px i = some p') (hw : ps'.s.w = { ps.s.w with mem := ps'.s.w.mem }) :
    (r = none ∨ r = some .unit) ∧ ∃ tr' s' L' cs', Mirror ps' K' i p' (calls ++ [(.reset, .unit)]) n s0 tr' s' L' cs' := by
  obtain ⟨hpx, hm, hacc, hbl⟩ := M.idle h hp hr
  simp only [pstep, hpx] at hs
  have hbl' : K'.blocks i = [] := by
    cases ha
    cases r with
    | none => simp [PBook.enter, PBook.blocks, put_same]
    | some r => simp [PBook.enter, PBook.blocks, put_same, pgets, hr.2.1]
  have he := M.eta
  have hv := M.arena
  cases cs with
  | nil =>
    rw [if_pos (show rootOf [] = 0 from rfl)] at hs
    injection hs with hs; injection hs with hs; injection hs with e1 e2
    subst e1; subst e2
    rw [PS.setPx_same] at hp'
    injection hp' with hp'; subst hp'
    exact ⟨.inr rfl, M.rewind hacc (fun _ => rfl) (fun _ _ h => by cases h) he.symm hbl' rfl⟩
  | cons c t =>
    obtain ⟨m', hc, _, hv2, _⟩ := chunkReset_core hv hacc
    have hne : rootOf (c :: t) ≠ 0 := by rw [Ne, rootOf_eq_zero hv.ok]; simp
    rw [if_neg hne] at hs
    change (chunkReset c.start ps.s.w >>= _) = _ at hs
    rw [ebind_ok hc] at hs
    simp only at hs
    obtain ⟨pc, hpc⟩ := freeNext_a hs
    rw [hp'] at hpc
    injection hpc with hpc
    have hmem : ps'.s.w.mem = m' := by
      rw [freeNext_eq hv2 hacc.cons] at hs
      cases t with
      | nil =>
        injection hs with hs; injection hs with hs; injection hs with _ hs
        subst hs; rfl
      | cons d t =>
        simp only [PS.ask] at hs
        split at hs
        · injection hs with hs; injection hs with hs; injection hs with _ hs
          subst hs; rfl
        · cases hs
    refine ⟨freeNext_r hs, M.rewind hacc (fun h => by cases h) (fun c' t' h => ?_) (by rw [hpc, he]) hbl' (by rw [hw])⟩
    injection h with h _
    subst h
    rw [hmem]
    exact ⟨_, hc⟩

end Mirror

/-! ### Answers of the shared allocator -/

theorem PInv.at_alloc {p0 ps K KS cs pend} (h : PInv p0 ps K KS cs pend) {i p l} (hp : ps.px i = some p) (hpc : p.pc = .alloc l) :
    ∃ R, K.pbusy i = some (.allocate l, none) ∧ KS.busy i = some (.allocate ⟨R, 8⟩, none) ∧ l.Modest ∧ NoFit (cs i) l ∧
      chunkReq (rootCum (cs i)) p.a.minChunk l = some R := by
  have hx := h.px i
  rw [hp] at hx
  generalize K.live i = z1 at hx
  generalize K.led i = z2 at hx
  generalize K.pbusy i = z3 at *
  generalize K.direct.busy i = z4 at hx
  generalize KS.busy i = z5 at *
  generalize pend i = z6 at hx
  generalize cs i = z7 at *
  cases hx with
  | idle hv _ hm => cases hpc
  | alloc hv _ hm hl hn hR => injection hpc with hpc; subst hpc; exact ⟨_, rfl, rfl, hl, hn, hR⟩
  | resize hv _ hm => cases hpc
  | chain hv _ hm => cases hpc

theorem PInv.at_resize {p0 ps K KS cs pend} (h : PInv p0 ps K KS cs pend) {i p q old new} (hp : ps.px i = some p)
    (hpc : p.pc = .resize q old new) :
    ∃ R b, K.pbusy i = some (.resize q old new, some b) ∧ KS.busy i = some (.allocate ⟨R, 8⟩, none) ∧ new.Modest ∧ b.Fits q old ∧
      NoFitResize (cs i) q old new ∧ chunkReq (rootCum (cs i)) p.a.minChunk new = some R := by
  have hx := h.px i
  rw [hp] at hx
  generalize K.live i = z1 at hx
  generalize K.led i = z2 at hx
  generalize K.pbusy i = z3 at *
  generalize K.direct.busy i = z4 at hx
  generalize KS.busy i = z5 at *
  generalize pend i = z6 at hx
  generalize cs i = z7 at *
  cases hx with
  | idle hv _ hm => cases hpc
  | alloc hv _ hm hl hn hR => cases hpc
  | resize hv _ hm hl hf hn hR =>
    injection hpc with e1 e2 e3; subst e1; subst e2; subst e3
    exact ⟨_, _, rfl, rfl, hl, hf, hn, hR⟩
  | chain hv _ hm => cases hpc

theorem PInv.at_chain {p0 ps K KS cs pend} (h : PInv p0 ps K KS cs pend) {i p q} (hp : ps.px i = some p) (hpc : p.pc = .chain q) :
    K.pbusy i = some (.resetUnchecked, none) ∧ K.led i = [] := by
  have hx := h.px i
  rw [hp] at hx
  generalize K.live i = z1 at hx
  generalize K.led i = z2 at *
  generalize K.pbusy i = z3 at *
  generalize K.direct.busy i = z4 at hx
  generalize KS.busy i = z5 at *
  generalize pend i = z6 at hx
  generalize cs i = z7 at *
  cases hx with
  | idle hv _ hm => cases hpc
  | alloc hv _ hm hl hn hR => cases hpc
  | resize hv _ hm hl hf hn hR => cases hpc
  | chain hv _ hm => exact ⟨rfl, rfl⟩

theorem PInv.at_idle {p0 ps K KS cs pend} (h : PInv p0 ps K KS cs pend) {i p} (hp : ps.px i = some p) (hpc : p.pc = .idle) :
    K.pbusy i = none := by
  have hx := h.px i
  rw [hp] at hx
  generalize K.live i = z1 at hx
  generalize K.led i = z2 at *
  generalize K.pbusy i = z3 at *
  generalize K.direct.busy i = z4 at hx
  generalize KS.busy i = z5 at *
  generalize pend i = z6 at hx
  generalize cs i = z7 at *
  cases hx with
  | idle hv _ hm => rfl
  | alloc hv _ hm hl hn hR => cases hpc
  | resize hv _ hm hl hf hn hR => cases hpc
  | chain hv _ hm => cases hpc

theorem PInv.absent {p0 ps K KS cs pend} (h : PInv p0 ps K KS cs pend) {i} (hp : ps.px i = none) : K.pbusy i = none := by
  have hx := h.px i
  rw [hp] at hx
  generalize K.live i = z1 at hx
  generalize K.led i = z2 at *
  generalize K.pbusy i = z3 at *
  generalize K.direct.busy i = z4 at hx
  generalize KS.busy i = z5 at *
  generalize pend i = z6 at hx
  generalize cs i = z7 at *
  cases hx with
  | absent => rfl

/-- The block the shared allocator answers with. -/
theorem PInv.newBlock {p0 ps K KS cs pend} (h : PInv p0 ps K KS cs pend) {t R : Nat} {ch : Choice} {sl : Slice} {s' : SS}
    (hb : KS.busy t = some (.allocate ⟨R, 8⟩, none)) (hs : sstep ps.s (.go t ch) = .ok (some (some (.block sl), s'))) (h32 : 32 ≤ R) :
    0 < sl.addr ∧ sl.addr % 8 = 0 ∧ R ≤ sl.len ∧ sl.len < ISIZE ∧ sl.addr + sl.len < ps.s.w.top ∧
    (∀ c ∈ cs t, sl.addr + sl.len ≤ c.start ∨ c.end_ ≤ sl.addr) ∧
    ∃ b ∈ ps.s.w.held, b.addr ≤ sl.addr ∧ sl.addr + sl.len ≤ b.addr + b.len := by
  obtain ⟨e1, e2, _⟩ := h.reach.ret_w hs
  obtain ⟨h0, tr, hr⟩ := h.reach
  have hreach : SReach p0.s s' { KS with owned := Owned.of sl ⟨R, 8⟩ :: KS.owned, busy := put KS.busy t none } :=
    ⟨h0, _, hr.snoc .go hs (.ret hb)⟩
  obtain ⟨f1, f2, f3, B, _, f5, f6, f7⟩ := C22_layout_and_memory hreach (b := Owned.of sl ⟨R, 8⟩) List.mem_cons_self
  have f8 := hreach.owned_range (b := Owned.of sl ⟨R, 8⟩) List.mem_cons_self
  have hfr : ∀ b ∈ KS.owned, (Owned.of sl ⟨R, 8⟩).Apart b := fun b hb => hreach.fresh rfl hb
  rw [e1] at f5 f8
  simp only [Owned.of] at f1 f2 f3 f6 f7 f8
  have htop := h.top
  refine ⟨f3, f1, f2, by simp only [HUGE] at htop; omega, f8, ?_, B, f5, f6, f7⟩
  intro c hc
  have hok := (h.px t).ok c (List.mem_append_left _ hc)
  have := hok.lo; have := hok.hi
  have ha := hfr c.own (h.tiles.mem (i := t) (List.mem_map_of_mem (List.mem_append_left _ hc)))
  have := Owned.apart_ends ha (by simp only [Owned.of]; omega) (by simp only [Chunk.own]; omega)
  simp only [Owned.of, Chunk.own] at this
  omega

theorem AllocRes.top {w cs m l o w' cs'} (h : AllocRes w cs m l o w' cs') : w'.top = w.top := by
  cases h with
  | fast => rfl
  | slow _ h => cases h <;> rfl

namespace Mirror

variable {p0 ps ps' : PS} {K K' : PBook} {KS : Book} {i : Nat} {p p' : Proxy} {calls : List (Op × Resp)} {n : Nat} {s0 : St}
  {tr : List (Op × Resp)} {s : St} {L : List Owned} {cs : List Chunk} {csP pend : Nat → List Chunk}

theorem newChunk {R : Nat} {ch : Choice} {l : Layout} {sl : Slice} {s' : SS} (M : Mirror ps K i p calls n s0 tr s L cs)
    (h : PInv p0 ps K KS csP pend) (hp : ps.px i = some p)
    (hb : KS.busy i = some (.allocate ⟨R, 8⟩, none)) (hs : sstep ps.s (.go i ch) = .ok (some (some (.block sl), s')))
    (hl : l.Modest) (hn : NoFit (csP i) l) (hR : chunkReq (rootCum (csP i)) p.a.minChunk l = some R)
    (hz : ps.s.w.debug = true → 32 < sl.len) :
    ∃ V w' b c, V.mem = ps.s.w.mem ∧ AInv V cs s0.w.held ∧ V.top = s.w.top ∧ V.oracle V.calls = some sl ∧
      AllocRes V cs s.a.minChunk l (some b) w' (c :: cs) ∧ AInv w' (c :: cs) s0.w.held ∧
      newChunkAlloc p.a.root sl l ps.s.w = .ok (b, { ps.s.w with mem := w'.mem }) ∧ w'.top = ps.s.w.top ∧ w'.debug = ps.s.w.debug ∧
      (∀ a n, w'.accessible a n = true → ps.s.w.accessible a n = true) ∧ c.start = sl.addr ∧ NoFit cs l ∧
      chunkReq (rootCum cs) s.a.minChunk l ≠ none := by
  have hal := M.alike h hp
  have hm := (h.exists_ hp).2.2
  have hn' := hal.noFit hn
  have hR' : chunkReq (rootCum cs) s.a.minChunk l = some R := by rw [hal.rootCum, M.a]; exact hR
  have hm' : s.a.minChunk ≤ HUGE := by rw [M.a]; exact hm
  obtain ⟨f1, f2, f3, f4, f5, f6, f7⟩ := h.newBlock hb hs (by
    have := (chunkReq_facts hR).1
    unfold need at this
    omega)
  obtain ⟨V, w', b, c, g1, g2, g3, g4, g5, g6, g7, g8, g9, g10, g11, g12⟩ := newChunk_core M.arena (hal.acc (h.acc_left i))
    (needBound M.arena h.top hm' hl) hz hl.1 hn' hR' (reqBound M.arena h.top hm' hl hR') f1 f2 f3 f4 f5 (by
      intro c hc
      obtain ⟨d, hd, e1, e2, e3, e4⟩ := hal.mem hc
      have := f6 d hd
      omega) f7
  obtain ⟨sl', o1, o2, o3⟩ := g3.newest
  have : sl' = sl := by
    cases sl'; cases sl
    simp only at *
    congr 1 <;> omega
  subst this
  refine ⟨V, w', b, c, g1, by rw [M.held0]; exact g2, by rw [← g3.top, g6, M.top], o1, g3, by rw [M.held0]; exact g4, ?_, g6, g7, g8, g9, hn',
    by rw [hR']; simp⟩
  rw [M.eta]
  exact g5

theorem resumeAlloc {l : Layout} {ch : Choice} {r0 : Resp} {s' : SS} {r} (M : Mirror ps K i p calls n s0 tr s L cs)
    (h : PInv p0 ps K KS csP pend) (hp : ps.px i = some p) (hpc : p.pc = .alloc l)
    (hss : sstep ps.s (.go i ch) = .ok (some (some r0, s'))) (hs : pstep ps (.shared (.go i ch)) = .ok (some (r, ps')))
    (ha : PAfter ps.s.w.mem K (.shared (.go i ch)) r K') (hp' : ps'.px i = some p') (ho : s0.w.oracle n = r0.slice?) :
    ∃ r1, r = some r1 ∧ ∃ tr' s' L' cs', Mirror ps' K' i p' (calls ++ [(.allocate l, r1)]) (n + 1) s0 tr' s' L' cs' := by
  obtain ⟨R, hpb, hkb, hl, hn, hR⟩ := h.at_alloc hp hpc
  obtain ⟨e1, _, _⟩ := h.reach.ret_w hss
  rw [pstep_go_wait hss hp (by rw [hpc]; simp), hpc] at hs
  have ho' : s.w.oracle s.w.calls = r0.slice? := by rw [M.inv.oracle, M.count, ho]
  have hback : ∀ r1, r = some r1 → K' = { K with led := put K.led i (pgets (.allocate l) none r1 ++ K.led i), pbusy := put K.pbusy i none } := by
    rintro r1 rfl
    cases ha with
    | direct _ hr =>
      rcases hr with hr | hr
      · cases hr
      · have := hr _ _ rfl; rw [hpb] at this; cases this
    | back hb =>
      rw [hpb] at hb
      injection hb with hb; injection hb with hb1 hb2
      subst hb1; subst hb2
      rfl
  have hbl : K.blocks i = K.led i := by simp [PBook.blocks, hpb]
  by_cases hblk : ∃ sl, r0 = .block sl
  · obtain ⟨sl, rfl⟩ := hblk
    by_cases hz : ps.s.w.debug = true ∧ ¬ 32 < sl.len
    · exfalso
      obtain ⟨_, _, _, _, z5⟩ := h.noRoomChunk hkb hss hR hz.1 hz.2
      rw [← e1, ← (h.exists_ hp).2.1] at z5
      simp only [PS.resume] at hs
      rw [ebind_err z5] at hs
      cases hs
    replace hz : ps.s.w.debug = true → 32 < sl.len := fun hd => Classical.byContradiction fun hn => hz ⟨hd, hn⟩
    obtain ⟨V, w', b, c, g1, g2, g3, g4, g5, g6, g7, g8, g9, g10, g11, g12, g13⟩ := M.newChunk h hp hkb hss hl hn hR hz
    rw [← e1] at g7
    simp only [PS.resume] at hs
    rw [ebind_ok g7] at hs
    injection hs with hs; injection hs with hs; injection hs with i1 i2
    subst i1; subst i2
    rw [hback _ rfl]
    rw [PS.setPx_same] at hp'
    injection hp' with hp'; subst hp'
    obtain ⟨s1, t1, t2, t3, t4, t5⟩ := M.inv.twin_allocate hl.1 g2 g3 g5 (fun _ => by rw [g4, ho']; rfl) (by rw [g1]; exact M.body)
    refine ⟨_, rfl, _, s1, _, _, M.call (.allocate hl.1) t1 .allocOk (t3 _ .allocOk) ?_ (VInv.of g6 rfl ?_) ?_ t4 ?_ rfl
      (by rw [t5.calls.2 g12 g13, M.count])⟩
    · rw [t2, M.a]
      show _ = BA.mk sl.addr p.a.minChunk
      rw [← g11]; rfl
    · show w'.top = s'.w.top
      rw [e1, g8]
    · simp only [PBook.blocks, put_same, pgets]
      rw [← hbl]
      exact M.led.cons _
    · show s'.w.top = ps.s.w.top
      rw [e1]
  · have hne : ∀ b, r0 ≠ .block b := fun b hb => hblk ⟨b, hb⟩
    have he : PS.resume { ps with s := s' } i p.a r0 (.alloc l) = PS.answer { ps with s := s' } i p.a s'.w .err := by
      cases r0 with
      | block b => exact absurd rfl (hne b)
      | unit => rfl
      | err => rfl
    have hno : r0.slice? = none := by
      cases r0 with
      | block b => exact absurd rfl (hne b)
      | unit => rfl
      | err => rfl
    rw [he] at hs
    injection hs with hs; injection hs with hs; injection hs with i1 i2
    subst i1; subst i2
    rw [hback _ rfl]
    rw [PS.setPx_same] at hp'
    injection hp' with hp'; subst hp'
    have hal := M.alike h hp
    have hn' := hal.noFit hn
    have hR' : chunkReq (rootCum cs) s.a.minChunk l = some R := by rw [hal.rootCum, M.a]; exact hR
    obtain ⟨s1, t1, t2, t3, t4, t5⟩ := M.inv.twin_allocate (V := { VW ps.s.w cs with oracle := fun _ => none }) (o := none) hl.1
      M.deaf M.top.symm (.slow hn' (.refused R hR' rfl)) (fun _ => by rw [ho', hno]) M.body
    refine ⟨_, rfl, _, s1, _, _, M.call (.allocate hl.1) t1 .allocErr (t3 _ .allocErr) ?_ (M.arena.frame ?_ ?_) ?_ ?_ ?_ rfl
      (by rw [t5.calls.2 hn' (by rw [hR']; simp), M.count])⟩
    · rw [t2]; exact M.eta.symm
    · show s'.w.top = ps.s.w.top
      rw [e1]
    · intro c hc x _ _
      show s'.w.mem x = _
      rw [e1]
    · simp only [PBook.blocks, put_same, pgets]
      show L.Perm (K.led i)
      rw [← hbl]
      exact M.led
    · show SameBody cs s'.w.mem _
      rw [e1]
      exact t4
    · show s'.w.top = ps.s.w.top
      rw [e1]

theorem resumeResize {q : Nat} {old new : Layout} {ch : Choice} {r0 : Resp} {s' : SS} {r} (M : Mirror ps K i p calls n s0 tr s L cs)
    (h : PInv p0 ps K KS csP pend) (hp : ps.px i = some p) (hpc : p.pc = .resize q old new)
    (hss : sstep ps.s (.go i ch) = .ok (some (some r0, s'))) (hs : pstep ps (.shared (.go i ch)) = .ok (some (r, ps')))
    (ha : PAfter ps.s.w.mem K (.shared (.go i ch)) r K') (hp' : ps'.px i = some p') (ho : s0.w.oracle n = r0.slice?) :
    ∃ r1, r = some r1 ∧ ∃ tr' s' L' cs', Mirror ps' K' i p' (calls ++ [(.resize q old new, r1)]) (n + 1) s0 tr' s' L' cs' := by
  obtain ⟨R, b0, hpb, hkb, hl, hf, hn, hR⟩ := h.at_resize hp hpc
  obtain ⟨e1, _, _⟩ := h.reach.ret_w hss
  rw [pstep_go_wait hss hp (by rw [hpc]; simp), hpc] at hs
  have ho' : s.w.oracle s.w.calls = r0.slice? := by rw [M.inv.oracle, M.count, ho]
  have hback : ∀ r1, r = some r1 →
      K' = { K with led := put K.led i (pgets (.resize q old new) (some b0) r1 ++ K.led i), pbusy := put K.pbusy i none } := by
    rintro r1 rfl
    cases ha with
    | direct _ hr =>
      rcases hr with hr | hr
      · cases hr
      · have := hr _ _ rfl; rw [hpb] at this; cases this
    | back hb =>
      rw [hpb] at hb
      injection hb with hb; injection hb with hb1 hb2
      subst hb1; subst hb2
      rfl
  have hbl : K.blocks i = b0 :: K.led i := by simp [PBook.blocks, hpb]
  have hbL : b0 ∈ L := M.led.mem_iff.mpr (by rw [hbl]; exact List.mem_cons_self)
  have hu : InUsed cs q old.size := by
    obtain ⟨f1, f2, f3, f4⟩ := hf
    exact (M.inv.led.each b0 hbL).2.2.2.sub (by omega) (by omega)
  have hal := M.alike h hp
  have hn' := hal.noFitResize hn
  have hR' : chunkReq (rootCum cs) s.a.minChunk new = some R := by rw [hal.rootCum, M.a]; exact hR
  by_cases hblk : ∃ sl, r0 = .block sl
  · obtain ⟨sl, rfl⟩ := hblk
    have hz : ps.s.w.debug = true → 32 < sl.len := by
      intro hd
      apply Classical.byContradiction
      intro hz
      obtain ⟨_, _, _, d, hd', _⟩ := (h.px i).led.each b0 (by
        rw [hpb]; exact List.mem_append_left _ (by simp))
      rw [(h.noRoomChunk hkb hss hR hd hz).1] at hd'
      cases hd'
    obtain ⟨V, w', b, c, g1, g2, g3, g4, g5, g6, g7, g8, g9, g10, g11, g12, g13⟩ := M.newChunk h hp hkb hss hl hn.2.2 hR hz
    obtain ⟨c1, c2⟩ := copy_spec g2 hl.1 hu g5 g6
    have c3 := ((Lift.copyNonoverlapping q b.addr (min new.size old.size)).run (w := { ps.s.w with mem := w'.mem }) c1 rfl g9 g10).1
    rw [← e1] at g7 c3
    simp only [PS.resume] at hs
    rw [ebind_ok g7] at hs
    simp only at hs
    change (copyNonoverlapping q b.addr (min new.size old.size) { s'.w with mem := w'.mem } >>= _) = _ at hs
    rw [ebind_ok c3] at hs
    injection hs with hs; injection hs with hs; injection hs with i1 i2
    subst i1; subst i2
    rw [hback _ rfl]
    rw [PS.setPx_same] at hp'
    injection hp' with hp'; subst hp'
    obtain ⟨s1, t1, t2, t3, t4, t5⟩ := M.inv.twin_resize hbL hf hl.1 g2 g3 (.move b w' (c :: cs) hn'.1 hn'.2.1 g5)
      (fun _ => by rw [g4, ho']; rfl) (by rw [g1]; exact M.body)
    refine ⟨_, rfl, _, s1, _, _, M.call (.resize hbL hf hl.1) t1 (.resizeOk hbL hf) (t3 _ (.resizeOk hbL hf)) ?_ (VInv.of c2 rfl ?_) ?_ t4 ?_ rfl
      (by rw [t5.calls.2 hn' g13, M.count])⟩
    · rw [t2, M.a]
      show _ = BA.mk sl.addr p.a.minChunk
      rw [← g11]; rfl
    · show w'.top = s'.w.top
      rw [e1, g8]
    · simp only [PBook.blocks, put_same, pgets]
      have := (M.led.erase b0).cons (Owned.of b new)
      rw [hbl, List.erase_cons_head] at this
      exact this
    · show s'.w.top = ps.s.w.top
      rw [e1]
  · have hne : ∀ b, r0 ≠ .block b := fun b hb => hblk ⟨b, hb⟩
    have he : PS.resume { ps with s := s' } i p.a r0 (.resize q old new) = PS.answer { ps with s := s' } i p.a s'.w .err := by
      cases r0 with
      | block b => exact absurd rfl (hne b)
      | unit => rfl
      | err => rfl
    have hno : r0.slice? = none := by
      cases r0 with
      | block b => exact absurd rfl (hne b)
      | unit => rfl
      | err => rfl
    rw [he] at hs
    injection hs with hs; injection hs with hs; injection hs with i1 i2
    subst i1; subst i2
    rw [hback _ rfl]
    rw [PS.setPx_same] at hp'
    injection hp' with hp'; subst hp'
    obtain ⟨s1, t1, t2, t3, t4, t5⟩ := M.inv.twin_resize (V := { VW ps.s.w cs with oracle := fun _ => none }) (o := none) hbL hf hl.1
      M.deaf M.top.symm (.fail _ _ hn'.1 hn'.2.1 (.slow hn'.2.2 (.refused R hR' rfl))) (fun _ => by rw [ho', hno]) M.body
    refine ⟨_, rfl, _, s1, _, _, M.call (.resize hbL hf hl.1) t1 .resizeErr (t3 _ .resizeErr) ?_ (M.arena.frame ?_ ?_) ?_ ?_ ?_ rfl
      (by rw [t5.calls.2 hn' (by rw [hR']; simp), M.count])⟩
    · rw [t2]; exact M.eta.symm
    · show s'.w.top = ps.s.w.top
      rw [e1]
    · intro c hc x _ _
      show s'.w.mem x = _
      rw [e1]
    · simp only [PBook.blocks, put_same, pgets]
      show L.Perm (b0 :: K.led i)
      rw [← hbl]
      exact M.led
    · show SameBody cs s'.w.mem _
      rw [e1]
      exact t4
    · show s'.w.top = ps.s.w.top
      rw [e1]

theorem resumeChain {q : Nat} {ch : Choice} {r0 : Resp} {s' : SS} {r} (M : Mirror ps K i p calls n s0 tr s L cs)
    (h : PInv p0 ps K KS csP pend) (hE : PEff ps K csP pend (.shared (.go i ch)) r ps') (hp : ps.px i = some p) (hpc : p.pc = .chain q)
    (hss : sstep ps.s (.go i ch) = .ok (some (some r0, s'))) (hs : pstep ps (.shared (.go i ch)) = .ok (some (r, ps')))
    (ha : PAfter ps.s.w.mem K (.shared (.go i ch)) r K') (hp' : ps'.px i = some p') (ht : ps'.s.w.top = ps.s.w.top) :
    (r = none ∨ r = some .unit) ∧ ∃ tr' s' L' cs', Mirror ps' K' i p' calls n s0 tr' s' L' cs' := by
  obtain ⟨hpb, hld⟩ := h.at_chain hp hpc
  rw [pstep_go_wait hss hp (by rw [hpc]; simp), hpc] at hs
  simp only [PS.resume] at hs
  obtain ⟨pc, hpc'⟩ := freeNext_a hs
  rw [hp'] at hpc'
  injection hpc' with hpc'
  have hr := freeNext_r hs
  refine ⟨hr, tr, s, L, cs, M.frame h hp (fun x hx => hE.kept i x hx (by simp) (by simp [PAct.proxy])) ht (by rw [hpc']) ?_ rfl⟩
  cases ha with
  | direct => exact .refl _
  | back hb =>
    rw [hpb] at hb
    injection hb with hb; injection hb with hb1 hb2
    subst hb1; subst hb2
    simp [PBook.blocks, hpb, put_same, pgets]

end Mirror

end Blink
