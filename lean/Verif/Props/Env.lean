import Verif.Proofs.EnvRun
import Verif.Spec.EnvExec
/-
  C85: other users of the underlying allocator make no difference.
-/
namespace Blink

theorem Priv.owned_apart {O m0 w v} (hp : Priv O m0 w v) {b : Owned} {B : BaseBlk} (hB : B ∈ v.held) (h1 : B.addr ≤ b.addr)
    (h2 : b.addr + b.len ≤ B.addr + B.len) :
    (∀ c ∈ O, ∀ x, ¬ (b.Has x ∧ c.Holds x)) ∧ ∀ O' w', EnvStep O w O' w' → ∀ x, b.Has x → w'.mem x = w.mem x := by
  have key : ∀ x, b.Has x → B.Holds x := by rintro x ⟨h3, h4⟩; exact ⟨by omega, by omega⟩
  refine ⟨fun c hc x ⟨hb, hx⟩ => (hp.apart hB hc).holds (key x hb) hx, fun O' w' he x hx => ?_⟩
  obtain ⟨o, _, h1⟩ := hp.env he
  rw [h1.mem B hB x (key x hx), hp.mem B hB x (key x hx)]; rfl

theorem Priv.kept {O : List BaseBlk} {w w' v' : World} (hp : Priv O w.mem w' v') : ∀ b ∈ O, b ∈ w'.held ∧ ∀ x, b.Holds x → w'.mem x = w.mem x :=
  fun b hb => ⟨hp.subO hb, fun x hx => hp.oth b hb x hx⟩

/-! ### `BlinkAlloc` -/

/-- C85: whatever others do with the underlying allocator in the meantime, a history of a `BlinkAlloc` is a history of one that has the underlying allocator to
itself: same calls and responses, same blocks, same contents, same calls to the underlying allocator. -/
theorem C85_local {s0 s : St} {tr L O} (h0 : Start s0) (h : ERun s0 tr s L O) :
    ∃ o v, Run ⟨s0.w.alone o, s0.a⟩ [] tr v L ∧ v.a = s.a ∧ Alongside O s.w v.w := by
  obtain ⟨o, v, hr, hp⟩ := h.alone h0
  exact ⟨o, _, hr, rfl, hp.toAlongside⟩

/-- C85: every legal call is answered, unless the underlying allocator gives memory that it must not give, and leaves the blocks of others alone. -/
theorem C85_local_step {s0 s : St} {tr L O} (h0 : Start s0) (h : ERun s0 tr s L O) {op : Op} (hl : Legal L op) :
    (∃ e, step s op = .error e ∧ (BadAnswer s.w e ∨ ∃ l sl, e = .env l sl ∧ Hits O sl)) ∨
    ∃ r s', step s op = .ok (r, s') ∧ ∀ b ∈ O, b ∈ s'.w.held ∧ ∀ x, b.Holds x → s'.w.mem x = s.w.mem x := by
  obtain ⟨o, v, hr, hp⟩ := h.alone h0
  rcases step_alone ⟨h0.alone, _, hr⟩ hp hl with he | ⟨r, s', v', h1, _, h3⟩
  · exact .inl he
  · exact .inr ⟨r, s', h1, h3.kept⟩

/-- C85: no byte of an owned block belongs to others, and no step of others changes it. -/
theorem C85_local_owned {s0 s : St} {tr L O} (h0 : Start s0) (h : ERun s0 tr s L O) {b : Owned} (hb : b ∈ L) :
    (∀ c ∈ O, ∀ x, ¬ (b.Has x ∧ c.Holds x)) ∧ ∀ O' w', EnvStep O s.w O' w' → ∀ x, b.Has x → w'.mem x = s.w.mem x := by
  obtain ⟨o, v, hr, hp⟩ := h.alone h0
  obtain ⟨_, _, _, B, _, hB, h1, h2⟩ := C02_layout_and_memory (⟨h0.alone, _, hr⟩ : Reach _ ⟨v, s.a⟩ L) hb
  exact hp.owned_apart hB h1 h2

/-- Others obtain a block right behind the first chunk and fill it, the allocator needs a second chunk, is reset and gives the first one back, others
obtain part of that memory, fill it and give their old block back, and the allocator serves another request. -/
def edemoActs : List (Op ⊕ EnvAct) :=
  [.inl (.allocate ⟨100, 8⟩), .inr (.take ⟨66048, 64, ⟨64, 8⟩⟩ (.raw 1)), .inl (.allocate ⟨900, 16⟩), .inl .reset, .inr .ask,
   .inr (.take ⟨65536, 200, ⟨200, 8⟩⟩ (.raw 2)), .inr (.write ⟨64, 64, ⟨64, 8⟩⟩ (.raw 3)), .inr (.give ⟨66048, 64, ⟨64, 8⟩⟩ .uninit),
   .inl (.allocate ⟨40, 4⟩)]

/-- The hypotheses of C85 are met by `edemoActs`: in the end others hold memory that was a chunk of the allocator before. -/
theorem edemo : ∃ s0 tr s L O, Start s0 ∧ ERun s0 tr s L O ∧ L.length = 1 ∧ tr.length = 4 ∧ O = [⟨65536, 200, ⟨200, 8⟩⟩, ⟨64, 64, ⟨64, 8⟩⟩] ∧
    s.w.log.length = 3 ∧ s.w.mem 65600 = .raw 2 ∧ Legal L (.resize 131104 ⟨40, 4⟩ ⟨80, 8⟩) := by
  have h : ∃ p, eexecAll (demoStart [512, 2048]) [] (demoStart [512, 2048]).w.held edemoActs = some p ∧
      (p.2.2.1 = [⟨131104, 40, 40, 4⟩] ∧ p.1.length = 4 ∧ p.2.2.2 = [⟨65536, 200, ⟨200, 8⟩⟩, ⟨64, 64, ⟨64, 8⟩⟩] ∧
      p.2.1.w.log.length = 3 ∧ p.2.1.w.mem 65600 = .raw 2) := by
    have : (match eexecAll (demoStart [512, 2048]) [] (demoStart [512, 2048]).w.held edemoActs with
      | none => false
      | some p => decide (p.2.2.1 = [⟨131104, 40, 40, 4⟩] ∧ p.1.length = 4 ∧ p.2.2.2 = [⟨65536, 200, ⟨200, 8⟩⟩, ⟨64, 64, ⟨64, 8⟩⟩] ∧
        p.2.1.w.log.length = 3 ∧ p.2.1.w.mem 65600 = .raw 2)) = true := by decide +kernel
    split at this
    · cases this
    · rename_i p hp
      exact ⟨p, hp, of_decide_eq_true this⟩
  obtain ⟨⟨tr, s, L, O⟩, h1, h2, h3, h4, h5, h6⟩ := h
  dsimp only at h2 h3 h4 h5 h6
  subst h2 h4
  exact ⟨_, tr, s, _, _, demoStart_start _ _ (by decide), eexecAll_sound .nil h1, rfl, h3, rfl, h5, h6,
    .resize (b := ⟨131104, 40, 40, 4⟩) List.mem_cons_self ⟨rfl, rfl, by decide, by decide⟩ ⟨⟨3, rfl⟩, by decide⟩⟩

example : ∃ s0 tr s L O op b, Start s0 ∧ ERun s0 tr s L O ∧ O.length = 2 ∧ Legal L op ∧ op = .resize 131104 ⟨40, 4⟩ ⟨80, 8⟩ ∧ b ∈ L :=
  let ⟨_, _, _, L, _, h0, h, hL, _, hO, _, _, hl⟩ := edemo
  ⟨_, _, _, _, _, _, L[0]'(by omega), h0, h, by rw [hO]; rfl, hl, rfl, List.getElem_mem _⟩

/-! ### `SyncBlinkAlloc` -/

/-- C85: the same for any number of threads sharing a `SyncBlinkAlloc`. -/
theorem C85_sync {s0 s : SS} {tr K O} (h0 : SStart s0) (h : ESRun s0 tr s K O) :
    ∃ o v K1, SRun { s0 with w := s0.w.alone o } Book.empty tr v K1 ∧ SameBook K K1 ∧ v = { s with w := v.w } ∧ Alongside O s.w v.w := by
  obtain ⟨o, v, K1, hr, hK, hp⟩ := h.alone h0
  exact ⟨o, _, K1, hr, hK, rfl, hp.toAlongside⟩

/-- C85: every step is possible or has to wait, unless the underlying allocator gives memory that it must not give, and leaves the blocks of others alone. -/
theorem C85_sync_step {s0 s : SS} {tr K O} (h0 : SStart s0) (h : ESRun s0 tr s K O) {a : Act} (hl : SLegal K a) :
    (∃ e, sstep s a = .error e ∧ (BadAnswer s.w e ∨ ∃ l sl, e = .env l sl ∧ Hits O sl)) ∨ sstep s a = .ok none ∨
    ∃ r s', sstep s a = .ok (some (r, s')) ∧ ∀ b ∈ O, b ∈ s'.w.held ∧ ∀ x, b.Holds x → s'.w.mem x = s.w.mem x := by
  obtain ⟨o, v, K1, hr, hK, hp⟩ := h.alone h0
  rcases sstep_alone ⟨h0.alone, _, hr⟩ hp (hK.legal hl) with he | ⟨h1, _⟩ | ⟨r, s', v', h1, _, h3⟩
  · exact .inl he
  · exact .inr (.inl h1)
  · exact .inr (.inr ⟨r, s', h1, h3.kept⟩)

/-- C85: no byte of a block owned by a thread belongs to others, and no step of others changes it. -/
theorem C85_sync_owned {s0 s : SS} {tr K O} (h0 : SStart s0) (h : ESRun s0 tr s K O) {b : Owned} (hb : b ∈ K.owned) :
    (∀ c ∈ O, ∀ x, ¬ (b.Has x ∧ c.Holds x)) ∧ ∀ O' w', EnvStep O s.w O' w' → ∀ x, b.Has x → w'.mem x = s.w.mem x := by
  obtain ⟨o, v, K1, hr, hK, hp⟩ := h.alone h0
  rw [← hK.owned] at hb
  obtain ⟨_, _, _, B, _, hB, h1, h2⟩ := C22_layout_and_memory (⟨h0.alone, _, hr⟩ : SReach _ { s with w := v } K1) hb
  exact hp.owned_apart hB h1 h2

/-- Two threads are in the middle of their calls while others obtain a block, give one back and store. -/
def esdemoActs : List (Act ⊕ EnvAct) :=
  (.inl (.call 0 (.allocate ⟨100, 8⟩)) :: (goes 0 5).map .inl) ++
  [.inr (.take ⟨66048, 64, ⟨64, 8⟩⟩ (.raw 1)), .inl (.call 1 (.allocate ⟨20, 4⟩)), .inl (.go 1 fresh), .inr (.give ⟨64, 64, ⟨64, 8⟩⟩ (.raw 9)),
   .inl (.go 1 fresh), .inl (.call 2 (.resize 65568 ⟨100, 8⟩ ⟨900, 16⟩)), .inl (.go 2 fresh), .inr (.write ⟨66048, 64, ⟨64, 8⟩⟩ (.raw 2))]

example : ∃ s0 tr s K O b, SStart s0 ∧ ESRun s0 tr s K O ∧ O = [⟨66048, 64, ⟨64, 8⟩⟩] ∧ K.busy 1 = some (.allocate ⟨20, 4⟩, none) ∧
    K.busy 2 = some (.resize 65568 ⟨100, 8⟩ ⟨900, 16⟩, some b) ∧ SLegal K (.go 1 fresh) ∧ s.w.mem 66050 = .raw 2 := by
  have h : ∃ p, esexecAll (sdemoStart [512, 2048]) Book.empty (sdemoStart [512, 2048]).w.held esdemoActs = some p ∧
      (p.2.2.2 = [⟨66048, 64, ⟨64, 8⟩⟩] ∧ p.2.2.1.busy 1 = some (.allocate ⟨20, 4⟩, none) ∧
      p.2.2.1.busy 2 = some (.resize 65568 ⟨100, 8⟩ ⟨900, 16⟩, some ⟨65568, 100, 100, 8⟩) ∧ p.2.1.w.mem 66050 = .raw 2) := by
    have : (match esexecAll (sdemoStart [512, 2048]) Book.empty (sdemoStart [512, 2048]).w.held esdemoActs with
      | none => false
      | some p => decide (p.2.2.2 = [⟨66048, 64, ⟨64, 8⟩⟩] ∧ p.2.2.1.busy 1 = some (.allocate ⟨20, 4⟩, none) ∧
        p.2.2.1.busy 2 = some (.resize 65568 ⟨100, 8⟩ ⟨900, 16⟩, some ⟨65568, 100, 100, 8⟩) ∧ p.2.1.w.mem 66050 = .raw 2)) = true := by
      decide +kernel
    split at this
    · cases this
    · rename_i p hp
      exact ⟨p, hp, of_decide_eq_true this⟩
  obtain ⟨⟨tr, s, K, O⟩, h1, h2, h3, h4, h5⟩ := h
  exact ⟨_, tr, s, K, O, _, sdemoStart_start _ _ (by decide), esexecAll_sound .nil h1, h2, h3, h4, .go, h5⟩

/-- Here a block is owned while others hold one. -/
example : ∃ s0 tr s K O b, SStart s0 ∧ ESRun s0 tr s K O ∧ O.length = 2 ∧ b ∈ K.owned ∧ b = ⟨65568, 100, 100, 8⟩ := by
  have h : ∃ p, esexecAll (sdemoStart [512, 2048]) Book.empty (sdemoStart [512, 2048]).w.held (esdemoActs.take 7) = some p ∧
      (p.2.2.2.length = 2 ∧ ⟨65568, 100, 100, 8⟩ ∈ p.2.2.1.owned) := by
    have : (match esexecAll (sdemoStart [512, 2048]) Book.empty (sdemoStart [512, 2048]).w.held (esdemoActs.take 7) with
      | none => false
      | some p => decide (p.2.2.2.length = 2 ∧ ⟨65568, 100, 100, 8⟩ ∈ p.2.2.1.owned)) = true := by decide +kernel
    split at this
    · cases this
    · rename_i p hp
      exact ⟨p, hp, of_decide_eq_true this⟩
  obtain ⟨⟨tr, s, K, O⟩, h1, h2, h3⟩ := h
  exact ⟨_, tr, s, K, O, _, sdemoStart_start _ _ (by decide), esexecAll_sound .nil h1, h2, h3, rfl⟩

/-! ### Proxies -/

/-- C85: the same for a `SyncBlinkAlloc` used directly and through any number of proxies. -/
theorem C85_proxy {p0 ps : PS} {tr K O} (h0 : PStart p0) (h : EPRun p0 tr ps K O) :
    ∃ o v K1, PRun { p0 with s := { p0.s with w := p0.s.w.alone o } } PBook.empty tr v K1 ∧ SamePBook K K1 ∧
      v = { ps with s := { ps.s with w := v.s.w } } ∧ Alongside O ps.s.w v.s.w := by
  obtain ⟨o, v, K1, hr, hK, hp⟩ := h.alone h0
  exact ⟨o, _, K1, hr, hK, rfl, hp.toAlongside⟩

/-- C85: every step is possible or has to wait, unless the underlying allocator gives memory that it must not give or the chunk of a proxy has room for the header
only (C26), and leaves the blocks of others alone. -/
theorem C85_proxy_step {p0 ps : PS} {tr K O} (h0 : PStart p0) (h : EPRun p0 tr ps K O) {a : PAct} (hl : PLegal K a) :
    (∃ e, pstep ps a = .error e ∧ (BadAnswer ps.s.w e ∨ ps.EmptyChunk a e ∨ ∃ l sl, e = .env l sl ∧ Hits O sl)) ∨ pstep ps a = .ok none ∨
    ∃ r ps', pstep ps a = .ok (some (r, ps')) ∧ ∀ b ∈ O, b ∈ ps'.s.w.held ∧ ∀ x, b.Holds x → ps'.s.w.mem x = ps.s.w.mem x := by
  obtain ⟨o, v, K1, hr, hK, hp⟩ := h.alone h0
  rcases pstep_alone ⟨h0.alone, _, hr⟩ hp (hK.legal hl) with he | ⟨h1, _⟩ | ⟨r, s', v', h1, _, h3⟩
  · exact .inl he
  · exact .inr (.inl h1)
  · exact .inr (.inr ⟨r, s', h1, h3.kept⟩)

/-- C85: no byte of a block owned directly or through a proxy belongs to others, and no step of others changes it. -/
theorem C85_proxy_owned {p0 ps : PS} {tr K O} (h0 : PStart p0) (h : EPRun p0 tr ps K O) {b : Owned}
    (hb : b ∈ K.direct.owned ∨ ∃ i, b ∈ K.blocks i) :
    (∀ c ∈ O, ∀ x, ¬ (b.Has x ∧ c.Holds x)) ∧ ∀ O' w', EnvStep O ps.s.w O' w' → ∀ x, b.Has x → w'.mem x = ps.s.w.mem x := by
  obtain ⟨o, v, K1, hr, hK, hp⟩ := h.alone h0
  have hb1 : b ∈ K1.direct.owned ∨ ∃ i, b ∈ K1.blocks i := by
    unfold PBook.blocks
    rw [hK.direct.owned, hK.led, hK.pbusy]
    exact hb
  obtain ⟨_, _, _, B, _, hB, h1, h2⟩ := C26_memory (⟨h0.alone, _, hr⟩ : PReach _ { ps with s := { ps.s with w := v } } K1) hb1
  exact hp.owned_apart hB h1 h2

/-- A proxy allocates, others take, store and give back in between, and the proxy waits for a second chunk. -/
def epdemoActs : List (PAct ⊕ EnvAct) :=
  [.inl (.spawn 0 0), .inl (.allocate 0 ⟨16, 8⟩), .inl (.shared (.go 0 fresh)), .inr (.take ⟨69632, 64, ⟨64, 8⟩⟩ (.raw 1))] ++ (pgoes 0 4).map .inl ++
  [.inr (.give ⟨64, 64, ⟨64, 8⟩⟩ (.raw 9)), .inl (.allocate 0 ⟨300, 16⟩), .inl (.shared (.go 0 fresh)), .inr (.write ⟨69632, 64, ⟨64, 8⟩⟩ (.raw 2))]

example : ∃ p0 tr ps K O b, PStart p0 ∧ EPRun p0 tr ps K O ∧ O = [⟨69632, 64, ⟨64, 8⟩⟩] ∧ K.pbusy 0 = some (.allocate ⟨300, 16⟩, none) ∧
    PLegal K (.shared (.go 0 fresh)) ∧ b ∈ K.blocks 0 ∧ ps.s.w.mem 69640 = .raw 2 := by
  have h : ∃ p, epexecAll (pdemoStart [4096]) PBook.empty (pdemoStart [4096]).s.w.held epdemoActs = some p ∧
      (p.2.2.2 = [⟨69632, 64, ⟨64, 8⟩⟩] ∧ p.2.2.1.pbusy 0 = some (.allocate ⟨300, 16⟩, none) ∧ (p.2.2.1.blocks 0).length = 1 ∧
      p.2.1.s.w.mem 69640 = .raw 2) := by
    have : (match epexecAll (pdemoStart [4096]) PBook.empty (pdemoStart [4096]).s.w.held epdemoActs with
      | none => false
      | some p => decide (p.2.2.2 = [⟨69632, 64, ⟨64, 8⟩⟩] ∧ p.2.2.1.pbusy 0 = some (.allocate ⟨300, 16⟩, none) ∧ (p.2.2.1.blocks 0).length = 1 ∧
        p.2.1.s.w.mem 69640 = .raw 2)) = true := by decide +kernel
    split at this
    · cases this
    · rename_i p hp
      exact ⟨p, hp, of_decide_eq_true this⟩
  obtain ⟨⟨tr, s, K, O⟩, h1, h2, h3, h4, h5⟩ := h
  dsimp only at h4
  exact ⟨_, tr, s, K, O, (K.blocks 0)[0]'(by omega), pdemoStart_start _ _ (by decide), epexecAll_sound .nil h1, h2, h3, .go, List.getElem_mem _, h5⟩

end Blink
