import Verif.Proofs.ProxyRefine
import Verif.Spec.Exec
import Verif.Spec.ProxyExec
/-
  C75: a proxy behaves like a `BlinkAlloc` of its own whose underlying allocator gives the answers the shared allocator gives the proxy.
-/
namespace Blink

/-- A `BlinkAlloc` just created with chunk size `m`, in a world in which nobody has asked the underlying allocator for anything yet, which
gives the answers `A` to the first requests. -/
structure Own (m top : Nat) (A : List (Option Slice)) (s0 : St) : Prop where
  start : Start s0
  min : s0.a.minChunk = m
  held : s0.w.held = []
  top : s0.w.top = top
  calls : s0.w.calls = 0
  answers : ∀ k o, A[k]? = some o → s0.w.oracle k = o

/-- C75: there always is such a `BlinkAlloc`. -/
theorem C75_exists (m : Nat) {top : Nat} (ht : top ≤ USIZE) (A : List (Option Slice)) : ∃ s0, Own m top A s0 := by
  refine ⟨⟨⟨fun _ => .raw 0, [], fun k => (A[k]?).join, 0, [], top, false⟩, ⟨0, m⟩⟩, ⟨rfl, ⟨ht, by simp, by simp⟩, ?_, rfl⟩, rfl, rfl, rfl, rfl, ?_⟩
  · intro h; cases h
  · intro k o h
    simp [h]

/-- The `BlinkAlloc` `s`, whose callers own the blocks `L`, is as proxy `p` with number `i`: same fields, same chunks recorded in the headers,
same position in the newest one, same blocks handed out, with the same contents. It has made `n` requests to its underlying allocator and
holds exactly its chunks. -/
structure SameAs (ps : PS) (K : PBook) (i : Nat) (p : Proxy) (n : Nat) (s : St) (L : List Owned) : Prop where
  fields : s.a = p.a
  asked : s.w.calls = n
  blocks : L.Perm (K.blocks i)
  bytes : ∀ b ∈ L, ∀ x, b.Has x → s.w.mem x = ps.s.w.mem x
  chunks : ∀ C, ps.Chunks i C → (s.w.held.map fun b => (b.addr, b.len)).Perm C ∧ Older s.w.mem s.a.root C
  room : s.room = ps.room i

theorem Mirror.same {ps K i p calls n s0 tr s L cs} (M : Mirror ps K i p calls n s0 tr s L cs) (hp : ps.px i = some p) :
    SameAs ps K i p n s L where
  fields := M.a
  asked := M.count
  blocks := M.led
  bytes := by
    intro b hb x hx
    have := M.body x ((M.inv.led.byte hb hx).body M.inv.arena.ok (k := 0) (by omega))
    exact this.symm
  chunks := by
    rintro C ⟨p', hp', hC⟩
    rw [hp] at hp'
    injection hp' with hp'
    subst hp'
    have h1 := Rep.older (m := ps.s.w.mem) M.arena.rep M.arena.ok
    rw [← M.inv.root, M.a] at h1
    have := hC.unique h1
    subst this
    refine ⟨?_, ?_⟩
    · have := M.inv.arena.perm.map (fun b : BaseBlk => (b.addr, b.len))
      rw [M.held0, List.append_nil, List.map_map] at this
      exact this
    · rw [M.inv.root]
      exact Rep.older M.inv.arena.rep M.inv.arena.ok
  room := by
    rw [M.inv.room]
    have he : p = ⟨⟨rootOf cs, s.a.minChunk⟩, p.pc⟩ := by rw [← M.eta]
    rw [he] at hp
    exact (PS.room_of hp M.arena).symm

/-- C75: whatever happens at the shared allocator, at its other proxies and in blocks: a proxy answers its callers as a `BlinkAlloc` of
their own would, created with the same chunk size and given by its underlying allocator what the shared allocator gave the proxy, and is in
the same state. -/
theorem C75_own {p0 ps : PS} {K : PBook} {tr} (h0 : PStart p0) (h : PRun p0 PBook.empty tr ps K) {i : Nat} {p : Proxy}
    (hp : ps.px i = some p) (hw : (pview i tr).wait ≠ some .reset) {s0 : St}
    (hs0 : Own p.a.minChunk p0.s.w.top (answersTo i p0 tr []) s0) :
    ∃ tr' s L, Run s0 [] tr' s L ∧ callsIn tr' = callsOf i tr ∧ SameAs ps K i p (answersTo i p0 tr []).length s L := by
  obtain ⟨tr', s, L, cs, M⟩ := (h.twin h0 i).2 p hp s0 hs0.start hs0.min hs0.held hs0.top hs0.calls hs0.answers
  refine ⟨tr', s, L, M.run, ?_, M.same hp⟩
  rw [M.calls]
  unfold PView.shown callsOf
  split
  · next e => exact absurd e hw
  · simp

/-- C75: the same while `reset_unchecked` of the proxy gives chunks back: the proxy itself is already reset. -/
theorem C75_resetting {p0 ps : PS} {K : PBook} {tr} (h0 : PStart p0) (h : PRun p0 PBook.empty tr ps K) {i : Nat} {p : Proxy}
    (hp : ps.px i = some p) (hw : (pview i tr).wait = some .reset) {s0 : St}
    (hs0 : Own p.a.minChunk p0.s.w.top (answersTo i p0 tr []) s0) :
    ∃ tr' s, Run s0 [] tr' s [] ∧ callsIn tr' = callsOf i tr ++ [(.reset, .unit)] ∧
      SameAs ps K i p (answersTo i p0 tr []).length s [] := by
  obtain ⟨tr', s, L, cs, M⟩ := (h.twin h0 i).2 p hp s0 hs0.start hs0.min hs0.held hs0.top hs0.calls hs0.answers
  have hL : L = [] := by
    have hb := (h.twin h0 i).1
    rw [hw] at hb
    obtain ⟨KS, cs', pend, hi⟩ := h.inv h0
    have := M.led
    cases hpc : p.pc with
    | idle => rw [hi.at_idle hp hpc] at hb; cases hb
    | alloc l => obtain ⟨R, e, _⟩ := hi.at_alloc hp hpc; rw [e] at hb; cases hb
    | resize q old new => obtain ⟨R, b, e, _⟩ := hi.at_resize hp hpc; rw [e] at hb; cases hb
    | chain q =>
      obtain ⟨e1, e2⟩ := hi.at_chain hp hpc
      simpa [PBook.blocks, e1, e2] using this
  subst hL
  refine ⟨tr', s, M.run, ?_, M.same hp⟩
  rw [M.calls, PView.shown, hw]
  rfl

theorem callsIn_snoc (tr : List (Op × Resp)) (x : Op × Resp) : callsIn (tr ++ [x]) = callsIn tr ++ callsIn [x] := by
  simp [callsIn]

/-- A history without its last call. -/
theorem Run.before {s0 : St} {X y} {tr s L} (h : Run s0 [] tr s L) (hc : callsIn tr = X ++ [y]) :
    ∃ tr' s' L', Run s0 [] tr' s' L' ∧ callsIn tr' = X := by
  induction h with
  | nil => cases X <;> cases hc
  | @snoc tr s L op r s' L' h hl hs ha ih =>
    rw [callsIn_snoc] at hc
    by_cases hop : callsIn [(op, r)] = []
    · rw [hop, List.append_nil] at hc
      exact ih hc
    · have : callsIn [(op, r)] = [(op, r)] := by
        cases op <;> simp [callsIn] at hop ⊢
      rw [this] at hc
      exact ⟨tr, s, L, h, (List.append_inj' hc rfl).1⟩

/-- C75: the calls of proxy `i` that came back since it was created, whether it still exists or not, are the calls of a history of a
`BlinkAlloc` in an address space of the same size. What is true of the calls in all histories of `BlinkAlloc`s is true of the calls of all proxies. -/
theorem C75_calls {p0 ps : PS} {K : PBook} {tr} (h0 : PStart p0) (h : PRun p0 PBook.empty tr ps K) (i : Nat) :
    ∃ s0 tr' s L, Start s0 ∧ s0.w.top = p0.s.w.top ∧ Run s0 [] tr' s L ∧ callsIn tr' = callsOf i tr := by
  have hT : p0.s.w.top ≤ USIZE := Nat.le_trans h0.top (by decide)
  have here : ∀ {ps : PS} {K : PBook} {tr p}, PRun p0 PBook.empty tr ps K → ps.px i = some p →
      ∃ s0 tr' s L, Start s0 ∧ s0.w.top = p0.s.w.top ∧ Run s0 [] tr' s L ∧ callsIn tr' = callsOf i tr := by
    intro ps K tr p h hp
    obtain ⟨s0, hs0⟩ := C75_exists p.a.minChunk hT (answersTo i p0 tr [])
    by_cases hw : (pview i tr).wait = some .reset
    · obtain ⟨tr', s, hr, hc, _⟩ := C75_resetting h0 h hp hw hs0
      obtain ⟨tr2, s2, L2, hr2, hc2⟩ := hr.before hc
      exact ⟨s0, tr2, s2, L2, hs0.start, hs0.top, hr2, hc2⟩
    · obtain ⟨tr', s, L, hr, hc, _⟩ := C75_own h0 h hp hw hs0
      exact ⟨s0, tr', s, L, hs0.start, hs0.top, hr, hc⟩
  induction h with
  | nil =>
    obtain ⟨s0, hs0⟩ := C75_exists 0 hT []
    exact ⟨s0, [], s0, [], hs0.start, hs0.top, .nil, rfl⟩
  | @snoc tr ps K a r ps' K' h hl hs ha ih =>
    cases hp' : ps'.px i with
    | some p' => exact here (h.snoc hl hs ha) hp'
    | none =>
      have hcalls : callsOf i (tr ++ [(a, r)]) = callsOf i tr := by
        unfold callsOf
        rw [pview_snoc]
        by_cases hw : a.who = some i
        · cases hp : ps.px i with
          | some p =>
            by_cases hd : a = .drop i
            · subst hd; rfl
            · obtain ⟨p1, h1, _⟩ := pstep_stays hs hp hd
              rw [hp'] at h1
              cases h1
          | none =>
            cases a with
            | shared a =>
              cases a with
              | go t ch =>
                injection hw with hw; subst hw
                have hwt := (h.twin h0 t).1
                obtain ⟨KS, cs, pend, hi⟩ := h.inv h0
                rw [hi.absent hp] at hwt
                cases r with
                | none => rfl
                | some r => simp [PView.next, hwt]
              | _ => cases hw
            | spawn j k =>
              injection hw with hw; subst hw
              simp only [pstep, hp] at hs
              split at hs
              · injection hs with hs; injection hs with hs; injection hs with _ hs; subst hs
                rw [PS.setPx_same] at hp'
                cases hp'
              · cases hs
            | updateMax | sync => cases hw
            | _ => injection hw with hw; subst hw; simp only [pstep, hp] at hs; cases hs
        · rw [PView.next_other hw]
      rw [hcalls]
      exact ih

/-! ### The hypotheses can be met -/

/-- Two proxies and direct use of the shared allocator, interleaved. Proxy 0 allocates, writes into its block, makes it larger, which takes
a second chunk, allocates and gives back; proxy 1 allocates in between. -/
def rdemo : List PAct :=
  [.spawn 0 0, .allocate 0 ⟨100, 8⟩] ++ pgoes 0 5 ++ [.shared (.write 65600 (.raw 7)), .spawn 1 0, .allocate 1 ⟨40, 8⟩] ++ pgoes 1 4 ++
  [.resize 0 65600 ⟨100, 8⟩ ⟨400, 8⟩] ++ pgoes 0 2 ++ [.shared (.call 2 (.allocate ⟨64, 8⟩))] ++ pgoes 2 2 ++ pgoes 0 2

theorem rdemo_own {acts : List PAct} {f : List (PAct × Option Resp) → PS → PBook → Bool}
    (h : pdemoAt [16384, 16384] 1024 acts (fun rs ps K => f (acts.zip rs) ps K) = true) :
    ∃ p0 ps K tr, PStart p0 ∧ PRun p0 PBook.empty tr ps K ∧ p0 = pdemoStart [16384, 16384] 1024 ∧ f tr ps K = true := by
  obtain ⟨rs, ps, K, h0, hr, _, hf⟩ := of_pdemoAt h
  exact ⟨_, ps, K, _, h0, hr, rfl, hf⟩

/-- The hypotheses of `C75_own` are met by proxy 0 in the end: it had two calls answered and two chunks given. -/
example : ∃ p0 ps K tr p s0, PStart p0 ∧ PRun p0 PBook.empty tr ps K ∧ ps.px 0 = some p ∧ (pview 0 tr).wait ≠ some .reset ∧
    Own p.a.minChunk p0.s.w.top (answersTo 0 p0 tr []) s0 ∧
    callsOf 0 tr = [(.allocate ⟨100, 8⟩, .block ⟨65600, 100⟩), (.resize 65600 ⟨100, 8⟩ ⟨400, 8⟩, .block ⟨65984, 400⟩)] ∧
    answersTo 0 p0 tr [] = [some ⟨65568, 256⟩, some ⟨65952, 512⟩] := by
  obtain ⟨p0, ps, K, tr, h0, hr, rfl, hf⟩ := rdemo_own (acts := rdemo) (f := fun tr ps _ => (ps.px 0).isSome &&
    decide ((pview 0 tr).wait = none) &&
    decide (callsOf 0 tr = [(.allocate ⟨100, 8⟩, .block ⟨65600, 100⟩), (.resize 65600 ⟨100, 8⟩ ⟨400, 8⟩, .block ⟨65984, 400⟩)]) &&
    decide (answersTo 0 (pdemoStart [16384, 16384] 1024) tr [] = [some ⟨65568, 256⟩, some ⟨65952, 512⟩])) (by decide +kernel)
  simp only [Bool.and_eq_true, decide_eq_true_eq] at hf
  obtain ⟨⟨⟨h1, h2⟩, h3⟩, h4⟩ := hf
  obtain ⟨p, hp⟩ := Option.isSome_iff_exists.mp h1
  obtain ⟨s0, hs0⟩ := C75_exists p.a.minChunk (Nat.le_trans h0.top (by decide)) (answersTo 0 (pdemoStart [16384, 16384] 1024) tr [])
  exact ⟨_, ps, K, tr, p, s0, h0, hr, hp, by rw [h2]; simp, hs0, h3, h4⟩

/-- The hypotheses of `C75_resetting` are met when the proxy is then told `reset_unchecked`. -/
example : ∃ p0 ps K tr p s0, PStart p0 ∧ PRun p0 PBook.empty tr ps K ∧ ps.px 0 = some p ∧ (pview 0 tr).wait = some .reset ∧
    Own p.a.minChunk p0.s.w.top (answersTo 0 p0 tr []) s0 ∧ (callsOf 0 tr).length = 2 := by
  obtain ⟨p0, ps, K, tr, h0, hr, rfl, hf⟩ := rdemo_own (acts := rdemo ++ [.resetUnchecked 0]) (f := fun tr ps _ => (ps.px 0).isSome &&
    decide ((pview 0 tr).wait = some .reset) && decide ((callsOf 0 tr).length = 2)) (by decide +kernel)
  simp only [Bool.and_eq_true, decide_eq_true_eq] at hf
  obtain ⟨⟨h1, h2⟩, h3⟩ := hf
  obtain ⟨p, hp⟩ := Option.isSome_iff_exists.mp h1
  obtain ⟨s0, hs0⟩ := C75_exists p.a.minChunk (Nat.le_trans h0.top (by decide)) (answersTo 0 (pdemoStart [16384, 16384] 1024) tr [])
  exact ⟨_, ps, K, tr, p, s0, h0, hr, hp, h2, hs0, h3⟩

/-- `C75_calls` says something about proxies that are gone: here proxy 0 is dropped after two calls. -/
example : ∃ p0 ps K tr, PStart p0 ∧ PRun p0 PBook.empty tr ps K ∧ ps.px 0 = none ∧ (callsOf 0 tr).length = 2 := by
  obtain ⟨p0, ps, K, tr, h0, hr, rfl, hf⟩ := rdemo_own (acts := rdemo ++ [.drop 0]) (f := fun tr ps _ => (ps.px 0).isNone &&
    decide ((callsOf 0 tr).length = 2)) (by decide +kernel)
  simp only [Bool.and_eq_true, decide_eq_true_eq] at hf
  exact ⟨_, ps, K, tr, h0, hr, Option.isNone_iff_eq_none.mp hf.1, hf.2⟩

end Blink
