import Verif.Spec.ProxyTouch
import Verif.Proofs.Blind
import Verif.Proofs.ProxyGo
/-
  Steps of proxies that neither read nor write a given byte.
-/
namespace Blink

namespace Blind

theorem chunkCap {x w} (c : Nat) (h : x < c ∨ c + 32 ≤ x) : Blind x (Blink.chunkCap c) w := by
  unfold Blink.chunkCap loadEnd
  exact bind (loadWord _ (by omega)) fun _ _ _ => bind (addU _ _) fun _ _ _ => subU _ _

theorem chunkReset {x w} (c : Nat) (h : x < c ∨ c + 32 ≤ x) : Blind x (Blink.chunkReset c) w := by
  unfold Blink.chunkReset loadEnd loadPrev
  exact bind (loadWord _ (by omega)) fun _ _ _ => bind (chunkCap c h) fun _ _ _ => bind (subU _ _) fun _ _ _ =>
    bind (storeWord _ _ (by omega)) fun _ _ _ => bind (storeWord _ _ (by omega)) fun _ _ _ =>
    bind (loadWord _ (by omega)) fun _ _ _ => bind (storeWord _ _ (by omega)) fun _ _ _ => pure _

theorem copyNonoverlapping {x w} (p q n : Nat) (hp : x < p ∨ p + n ≤ x) (hq : x < q ∨ q + n ≤ x) :
    Blind x (Blink.copyNonoverlapping p q n) w := by
  intro v
  unfold Blink.copyNonoverlapping
  show (if n = 0 ∨ (w.accessible p n = true ∧ w.accessible q n = true ∧ (p + n ≤ q ∨ q + n ≤ p)) then _ else _) = _
  split
  · rw [poke_setBytes w v _ hq]
    have : setBytes w.mem q n (fun i => (w.poke x v).mem (p + i)) = setBytes w.mem q n (fun i => w.mem (p + i)) := by
      funext y
      unfold setBytes
      split
      · exact w.poke_mem_ne v (by omega)
      · rfl
    rw [this]; rfl
  · rfl

/-- `x` is not in the room of the chunk at `c`. -/
def OutRoom (x c : Nat) (w : World) : Prop :=
  ∀ cur e, Blink.loadWord c w = .ok (cur, w) → Blink.loadWord (c + 8) w = .ok (e, w) → x < cur ∨ e ≤ x

theorem _root_.Blink.tryBump_within {c e : Nat} {l : Layout} {w w' : World} {a n} (h : Blink.tryBump c e l w = .ok (some (a, n), w')) :
    w' = w ∧ c ≤ a ∧ n = a + l.size ∧ n ≤ e := by
  unfold Blink.tryBump at h
  have hd : ∀ {p : Prop} [Decidable p] {s : String} {u w1 w2}, Blink.dassert p s w1 = .ok (u, w2) → w2 = w1 := dassert_world
  have hs : ∀ {a b : Nat} {u w1 w2}, Blink.subU a b w1 = .ok (u, w2) → w2 = w1 := by
    intro a b u w1 w2 h; unfold Blink.subU at h; split at h <;> cases h; rfl
  have ha : ∀ {a b : Nat} {u w1 w2}, Blink.addU a b w1 = .ok (u, w2) → w2 = w1 ∧ u = a + b := by
    intro a b u w1 w2 h; unfold Blink.addU at h; split at h <;> cases h; exact ⟨rfl, rfl⟩
  obtain ⟨sum, w1, h1, h'⟩ := mbind_inv h; clear h; have h := h'; clear h'
  have e1 : w1 = w := by
    unfold layoutSum at h1
    obtain ⟨_, w2, h2, h'⟩ := mbind_inv h1; clear h1; have h1 := h'; clear h'
    rw [(ha h1).1, hs h2]
  subst e1
  cases hc : checkedAdd c sum with
  | none => rw [hc] at h; cases h
  | some un =>
  rw [hc] at h
  simp only at h
  obtain ⟨t, w2, h2, h'⟩ := mbind_inv h; clear h; have h := h'; clear h'
  obtain ⟨_, w3, h3, h'⟩ := mbind_inv h; clear h; have h := h'; clear h'
  obtain ⟨_, w4, h4, h'⟩ := mbind_inv h; clear h; have h := h'; clear h'
  obtain ⟨nx, w5, h5, h'⟩ := mbind_inv h; clear h; have h := h'; clear h'
  have f2 := hs h2; have f3 := hd h3; have f4 := hd h4; have f5 := ha h5
  split at h
  · cases h
  obtain ⟨_, w6, h6, h'⟩ := mbind_inv h; clear h; have h := h'; clear h'
  unfold Blink.require at h6
  split at h6
  · cases h6
    injection h with h; injection h with g1 g2
    injection g1 with g1; injection g1 with g1 g3
    rename_i hr
    refine ⟨by rw [← g2, f5.1, f4, f3, f2], by rw [← g1]; exact hr.1, by rw [← g3, f5.2, g1], by rw [← g3]; exact hr.2⟩
  · cases h6

theorem _root_.Blink.chunkAlloc_within {c : Nat} {l : Layout} {w w' : World} {s : Slice} (h : Blink.chunkAlloc c l w = .ok (some s, w')) :
    ∃ cur e, Blink.loadWord c w = .ok (cur, w) ∧ Blink.loadWord (c + 8) w = .ok (e, w) ∧ cur ≤ s.addr ∧ s.addr + l.size ≤ e := by
  unfold Blink.chunkAlloc loadCursor loadEnd at h
  obtain ⟨cur, w1, h1, h'⟩ := mbind_inv h; clear h; have h := h'; clear h'
  have e1 := loadWord_world h1; subst e1
  obtain ⟨e, w2, h2, h'⟩ := mbind_inv h; clear h; have h := h'; clear h'
  have e2 := loadWord_world h2; subst e2
  obtain ⟨o, w3, h3, h'⟩ := mbind_inv h; clear h; have h := h'; clear h'
  split at h
  · cases h
  · rename_i a n
    obtain ⟨_, b1, b2, b3⟩ := tryBump_within h3
    obtain ⟨_, w4, h4, h'⟩ := mbind_inv h; clear h; have h := h'; clear h'
    obtain ⟨len, w5, h5, h'⟩ := mbind_inv h; clear h; have h := h'; clear h'
    obtain ⟨_, w6, h6, h'⟩ := mbind_inv h; clear h; have h := h'; clear h'
    obtain ⟨_, w7, h7, h'⟩ := mbind_inv h; clear h; have h := h'; clear h'
    injection h with h; injection h with h _; injection h with h; subst h
    exact ⟨cur, e, h1, h2, b1, by rw [← b2]; exact b3⟩

theorem chunkRealloc {x w} (c p : Nat) (old new : Layout) (h : x < c ∨ c + 32 ≤ x) (hr : OutRoom x c w)
    (hp : x < p ∨ p + old.size ≤ x) : Blind x (Blink.chunkRealloc c p old new) w := by
  unfold Blink.chunkRealloc
  refine bind (chunkAlloc c new (by omega)) fun o w' he => ?_
  cases o with
  | none => exact pure _
  | some s =>
    obtain ⟨cur, e, h1, h2, h3, h4⟩ := chunkAlloc_within he
    have := hr cur e h1 h2
    exact bind (copyNonoverlapping _ _ _ (by omega) (by omega)) fun _ _ _ => pure _

theorem _root_.Blink.cellCas_false {a o n : Nat} {w w' : World} (h : Blink.cellCas a o n w = .ok (false, w')) : w' = w := by
  unfold Blink.cellCas at h
  obtain ⟨cur, w1, h1, h'⟩ := mbind_inv h; clear h; have h := h'; clear h'
  have e1 := loadWord_world h1; subst e1
  split at h
  · obtain ⟨_, w2, h2, h'⟩ := mbind_inv h; clear h; have h := h'; clear h'
    cases h
  · cases h; rfl

theorem chunkResize {x w} (c p : Nat) (old new : Layout) (h : x < c ∨ c + 32 ≤ x) (hr : OutRoom x c w)
    (hp : x < p ∨ p + old.size ≤ x) : Blind x (Blink.chunkResize c p old new) w := by
  have key : ∀ w', w' = w → Blind x (Blink.chunkRealloc c p old new) w' := by
    rintro w' rfl; exact chunkRealloc c p old new h hr hp
  unfold Blink.chunkResize loadCursor loadEnd
  split
  · split
    · exact pure _
    · refine bind (addU _ _) fun oe w1 e1 => ?_
      have e1 : w1 = w := by unfold Blink.addU at e1; split at e1 <;> cases e1; rfl
      refine bind (loadWord _ (by omega)) fun cur w2 e2 => ?_
      have e2 := loadWord_world e2
      split
      · split
        · exact pure _
        · refine bind (loadWord _ (by omega)) fun e w3 e3 => ?_
          have e3 := loadWord_world e3
          split
          · exact pure _
          · refine bind (cellCas _ _ _ (by omega)) fun ok w4 e4 => ?_
            cases ok with
            | true => exact bind (subU _ _) fun _ _ _ => bind (dassert _ _) fun _ _ _ => pure _
            | false => exact key w4 (by rw [cellCas_false e4, e3, e2, e1])
      · exact key w2 (by rw [e2, e1])
  · exact key w rfl

theorem allocFast {x w} (a : BA) (l : Layout) (h : a.root ≠ 0 → x < a.root ∨ a.root + 32 ≤ x) : Blind x (a.allocFast l) w := by
  unfold BA.allocFast
  split
  · exact pure _
  · rename_i hr; exact chunkAlloc _ _ (by have := h hr; omega)

theorem resizeFast {x w} (a : BA) (p : Nat) (old new : Layout) (h : a.root ≠ 0 → x < a.root ∨ a.root + 32 ≤ x)
    (hr : a.root ≠ 0 → OutRoom x a.root w) (hp : x < p ∨ p + old.size ≤ x) : Blind x (a.resizeFast p old new) w := by
  unfold BA.resizeFast
  split
  · exact pure _
  · rename_i h0; exact chunkResize _ _ _ _ (h h0) (hr h0) hp

theorem deallocate {x w} (a : BA) (p n : Nat) (h : a.root ≠ 0 → x < a.root ∨ a.root + 32 ≤ x) : Blind x (a.deallocate p n) w := by
  unfold BA.deallocate arenaDealloc chunkDealloc
  split
  · exact pure _
  · rename_i h0
    have := h h0
    exact bind (addU _ _) fun _ _ _ => bind (cellCas _ _ _ (by omega)) fun _ _ _ => pure _

theorem lastChunkSize {x w} (a : BA) (h : a.root ≠ 0 → x < a.root ∨ a.root + 32 ≤ x) : Blind x a.lastChunkSize w := by
  unfold BA.lastChunkSize
  split
  · exact pure _
  · rename_i h0; exact chunkCap _ (h h0)

theorem arenaResetLeak {x w} (root : Nat) (k : Bool) (h : root ≠ 0 → x < root ∨ root + 32 ≤ x) : Blind x (Blink.arenaResetLeak root k) w := by
  unfold Blink.arenaResetLeak
  split
  · split
    · exact pure _
    · rename_i h0; exact bind (chunkReset _ (h h0)) fun _ _ _ => pure _
  · exact pure _

theorem chunkRequest {x w} (root m : Nat) (l : Layout) (h : root ≠ 0 → x < root ∨ root + 32 ≤ x) :
    Blind x (Blink.chunkRequest root m l) w := by
  unfold Blink.chunkRequest loadCum
  refine bind ?_ fun _ _ _ => ?_
  · split
    · exact pure _
    · rename_i h0
      have := h h0
      exact bind (loadWord _ (by omega)) fun _ _ _ => pure _
  · split
    · exact pure _
    · refine bind (dassert _ _) fun _ _ _ => ?_
      split
      · exact pure _
      · exact bind (require _ _) fun _ _ _ => pure _

theorem newChunkAlloc {x w} (root : Nat) (sl : Slice) (l : Layout) (h : root ≠ 0 → x < root ∨ root + 32 ≤ x)
    (hs : x < sl.addr ∨ sl.addr + sl.len ≤ x) (hh : x < sl.addr ∨ sl.addr + 32 ≤ x) : Blind x (Blink.newChunkAlloc root sl l) w := by
  unfold Blink.newChunkAlloc
  refine bind ?_ fun _ _ _ => bind (initChunk _ _ hh fun h0 => by have := h h0; omega) fun c w1 e1 => ?_
  · intro v
    unfold markUninit
    rw [poke_setBytes w v _ hs]; rfl
  · rw [initChunk_at e1]
    refine bind (chunkAlloc _ _ (by omega)) fun o _ _ => ?_
    cases o with
    | none => exact ub _
    | some s => exact pure _

end Blind

/-! ### Steps -/

theorem ppk_bind {α} {x : Nat} {v : Byte} {w : World} {f : M α} (hf : Blind x f w) {G G' : α × World → PRes}
    (hG : ∀ a w', f w = .ok (a, w') → G' (a, w'.poke x v) = ppokeRes x v (G (a, w'))) :
    (f (w.poke x v) >>= G') = ppokeRes x v (f w >>= G) := by
  rw [hf v]
  cases h : f w with
  | error e => rfl
  | ok p => obtain ⟨a, w'⟩ := p; exact hG a w' h

theorem PS.ask_poke (ps : PS) (i : Nat) (a : BA) (w : World) (c : Call) (pc : PPc) (x : Nat) (v : Byte) :
    (ps.poke x v).ask i a (w.poke x v) c pc = ppokeRes x v (ps.ask i a w c pc) := by
  unfold PS.ask
  show (if ps.s.pcs i = .idle then _ else _) = _
  split <;> rfl

theorem PS.answer_poke (ps : PS) (i : Nat) (a : BA) (w : World) (r : Resp) (x : Nat) (v : Byte) :
    (ps.poke x v).answer i a (w.poke x v) r = ppokeRes x v (ps.answer i a w r) := rfl

theorem PS.freeNext_poke (ps : PS) (i : Nat) (a : BA) (c : Nat) (w : World) {x : Nat} (v : Byte) (h : c ≠ 0 → x < c ∨ c + 32 ≤ x) :
    (ps.poke x v).freeNext i a c (w.poke x v) = ppokeRes x v (ps.freeNext i a c w) := by
  unfold PS.freeNext
  split
  · rfl
  · rename_i h0
    have := h h0
    exact ppk_bind (Blind.loadWord _ (by omega)) fun _ _ _ => ppk_bind (Blind.loadWord _ (by omega)) fun _ _ _ =>
      ppk_bind (Blind.subU _ _) fun _ _ _ => PS.ask_poke _ _ _ _ _ _ _ _

/-- `x` is in the header of one of the chunks. -/
def InHdr (cs : List Chunk) (x : Nat) : Prop := ∃ c ∈ cs, c.start ≤ x ∧ x < c.start + 32

/-- `x` is in the free room of the newest chunk. -/
def InRoom (cs : List Chunk) (x : Nat) : Prop := ∃ c t, cs = c :: t ∧ c.cursor ≤ x ∧ x < c.end_

theorem notHdr_root {cs : List Chunk} {x : Nat} (h : ¬ InHdr cs x) (h0 : rootOf cs ≠ 0) : x < rootOf cs ∨ rootOf cs + 32 ≤ x := by
  cases cs with
  | nil => exact absurd rfl h0
  | cons c t =>
    show x < c.start ∨ c.start + 32 ≤ x
    apply Decidable.byContradiction
    intro hn
    exact h ⟨c, List.mem_cons_self, by omega, by omega⟩

theorem VInv.outRoom {w : World} {cs : List Chunk} {x : Nat} (hv : VInv w cs) (h : ¬ InRoom cs x) (h0 : rootOf cs ≠ 0) :
    Blind.OutRoom x (rootOf cs) w := by
  cases cs with
  | nil => exact absurd rfl h0
  | cons c t =>
    intro cur e h1 h2
    obtain ⟨⟨a1, a2, _⟩, _⟩ := (show Rep w.mem (c :: t) from hv.rep)
    have key : ∀ {a u v}, WordAt w.mem a u → loadWord a w = .ok (v, w) → v = u := by
      intro a u v hu hl
      unfold loadWord at hl
      rw [decodeWord_of hu] at hl
      split at hl
      · cases hl; rfl
      · cases hl
    have e1 := key a1 h1
    have e2 := key a2 h2
    apply Decidable.byContradiction
    intro hn
    exact h ⟨c, t, rfl, by omega, by omega⟩

/-- What a call of a proxy can see: headers of its chunks; `resize` also the block it is given and the free room. -/
theorem PInv.own_blind {p0 ps K KS cs pend} (h : PInv p0 ps K KS cs pend) {a : PAct} (hl : PLegal K a) {i : Nat} (hi : a.proxy = some i)
    {x : Nat} (hh : ¬ InHdr (cs i) x)
    (hr : ∀ p old new, a = .resize i p old new → (x < p ∨ p + old.size ≤ x) ∧ ¬ InRoom (cs i) x) (v : Byte) :
    pstep (ps.poke x v) a = ppokeRes x v (pstep ps a) := by
  have hroot := notHdr_root hh
  have ready : K.Ready i → ∃ m, ps.px i = some ⟨⟨rootOf (cs i), m⟩, .idle⟩ ∧ VInv ps.s.w (cs i) := by
    rintro ⟨r1, r2, _⟩
    have hx := h.px i
    rw [r1, r2] at hx
    obtain ⟨m, h1, h2, _⟩ := hx.ready
    exact ⟨m, h1, h2⟩
  cases hl with
  | call h1 h2 => cases hi
  | go => cases hi
  | write h1 => cases hi
  | pwrite h1 h2 => cases hi
  | sreset h1 h2 h3 => cases hi
  | spawn h1 => cases hi
  | updateMax h1 => cases hi
  | sync => cases hi
  | @allocate j l hrd hl =>
    injection hi with hi; subst hi
    obtain ⟨m, hpx, hv⟩ := ready hrd
    simp only [pstep, show (ps.poke x v).px j = ps.px j from rfl, hpx]
    refine ppk_bind (Blind.allocFast _ _ hroot) fun o w1 _ => ?_
    cases o with
    | some b => rfl
    | none =>
      refine ppk_bind (Blind.chunkRequest _ _ _ hroot) fun q w2 _ => ?_
      cases q with
      | none => rfl
      | some n => exact PS.ask_poke _ _ _ _ _ _ _ _
  | @resize j b p old new hrd hb hf hl =>
    injection hi with hi; subst hi
    obtain ⟨m, hpx, hv⟩ := ready hrd
    obtain ⟨r1, r2⟩ := hr p old new rfl
    simp only [pstep, show (ps.poke x v).px j = ps.px j from rfl, hpx]
    refine ppk_bind (Blind.resizeFast _ _ _ _ hroot (hv.outRoom r2) r1) fun o w1 _ => ?_
    cases o with
    | some b => rfl
    | none =>
      refine ppk_bind (Blind.chunkRequest _ _ _ hroot) fun q w2 _ => ?_
      cases q with
      | none => rfl
      | some n => exact PS.ask_poke _ _ _ _ _ _ _ _
  | @deallocate j b p n hrd hb hf =>
    injection hi with hi; subst hi
    obtain ⟨m, hpx, hv⟩ := ready hrd
    simp only [pstep, show (ps.poke x v).px j = ps.px j from rfl, hpx]
    exact ppk_bind (Blind.deallocate _ _ _ hroot) fun _ w1 _ => rfl
  | @reset j hrd =>
    injection hi with hi; subst hi
    obtain ⟨m, hpx, hv⟩ := ready hrd
    simp only [pstep, show (ps.poke x v).px j = ps.px j from rfl, hpx]
    exact ppk_bind (Blind.lastChunkSize _ hroot) fun _ w1 _ => ppk_bind (Blind.arenaResetLeak _ _ hroot) fun _ _ _ => rfl
  | @resetUnchecked j hrd =>
    injection hi with hi; subst hi
    obtain ⟨m, hpx, hv⟩ := ready hrd
    simp only [pstep, show (ps.poke x v).px j = ps.px j from rfl, hpx]
    split
    · rfl
    · rename_i h0
      refine ppk_bind (Blind.chunkReset _ (hroot h0)) fun prev w1 he => ?_
      refine PS.freeNext_poke _ _ _ _ _ _ fun hp0 => ?_
      cases hc : cs j with
      | nil => rw [hc] at h0; exact absurd rfl h0
      | cons c t =>
        rw [hc] at hv he hh
        obtain ⟨m', hm', _⟩ := chunkReset_core hv (hc ▸ h.acc_left j)
        rw [show rootOf (c :: t) = c.start from rfl, hm'] at he
        injection he with he; injection he with he _
        subst he
        exact notHdr_root (fun ⟨d, hd, hx⟩ => hh ⟨d, List.mem_cons_of_mem _ hd, hx⟩) hp0
  | @drop j hrd =>
    injection hi with hi; subst hi
    obtain ⟨m, hpx, hv⟩ := ready hrd
    simp only [pstep, show (ps.poke x v).px j = ps.px j from rfl, hpx]
    exact ppk_bind (Blind.lastChunkSize _ hroot) fun _ w1 _ => ppk_bind (Blind.arenaResetLeak _ _ hroot) fun _ _ _ =>
      ppk_bind (Blind.dassert _ _) fun _ _ _ => rfl

/-- What a proxy can see when the shared allocator answers it. -/
def PS.backSees (ps : PS) (t : Nat) (ch : Choice) (x : Nat) : Prop :=
  ∃ p r s', ps.px t = some p ∧ p.pc ≠ .idle ∧ sstep ps.s (.go t ch) = .ok (some (some r, s')) ∧
    ((p.a.root ≠ 0 ∧ p.a.root ≤ x ∧ x < p.a.root + 32) ∨ (∃ sl, r = .block sl ∧ sl.addr ≤ x ∧ x < sl.addr + sl.len) ∨
      (∃ q old new, p.pc = .resize q old new ∧ q ≤ x ∧ x < q + old.size) ∨ ∃ n, p.pc = .chain n ∧ n ≠ 0 ∧ n ≤ x ∧ x < n + 32)

theorem PInv.block_within {p0 ps K KS cs pend} (h : PInv p0 ps K KS cs pend) {t : Nat} {ch : Choice} {sl : Slice} {s' : SS} {p : Proxy}
    (hs : sstep ps.s (.go t ch) = .ok (some (some (.block sl), s'))) (hp : ps.px t = some p) (hpc : p.pc ≠ .idle) :
    ((∃ l, p.pc = .alloc l) ∨ (∃ q old new, p.pc = .resize q old new) → 32 ≤ sl.len) ∧
    ∀ q old new, p.pc = .resize q old new → ∀ b w1, newChunkAlloc p.a.root sl new ps.s.w = .ok (b, w1) →
      sl.addr ≤ b.addr ∧ b.addr + new.size ≤ sl.addr + sl.len := by
  obtain ⟨h0, tr, hr⟩ := h.reach
  have long : ∀ R m l, KS.busy t = some (.allocate ⟨R, 8⟩, none) → chunkReq (rootCum (cs t)) m l = some R → 32 ≤ sl.len := by
    intro R m l hb hR
    have hreach : SReach p0.s s' { KS with owned := Owned.of sl ⟨R, 8⟩ :: KS.owned, busy := put KS.busy t none } :=
      ⟨h0, _, hr.snoc .go hs (.ret hb)⟩
    obtain ⟨_, f2, _⟩ := C22_layout_and_memory hreach (b := Owned.of sl ⟨R, 8⟩) List.mem_cons_self
    have hR0 := (chunkReq_facts hR).1
    simp only [Owned.of] at f2
    unfold need at hR0
    omega
  have hx := h.px t
  generalize hkb : KS.busy t = kb at hx
  generalize hdb : K.direct.busy t = db at hx
  generalize hpb : K.pbusy t = pb at hx
  generalize hlv : K.live t = lv at hx
  generalize hld : K.led t = ld at hx
  generalize hpd : pend t = pd at hx
  generalize hcs : cs t = csi at hx
  rw [hp] at hx
  cases hx with
  | idle => exact absurd rfl hpc
  | chain => exact ⟨(by rintro (⟨l, hl⟩ | ⟨q, o, n, hl⟩) <;> cases hl), by intro q o n hl; cases hl⟩
  | @alloc _ m _ l R hv hL hm hl hn hR =>
    subst hcs
    exact ⟨fun _ => long R m l hkb hR, by intro q o n hl; cases hl⟩
  | @resize _ m _ q old new b R hv hL hm hl hf hn hR =>
    subst hcs
    refine ⟨fun _ => long R m new hkb hR, ?_⟩
    intro q' old' new' hq b1 w1 hb1
    injection hq with i1 i2 i3
    subst i1; subst i2; subst i3
    have hz : ps.s.w.debug = true → 32 < sl.len := by
      intro hd
      apply Classical.byContradiction
      intro hz
      rw [(h.noRoomChunk hkb hs hR hd hz).2.2.2.2] at hb1
      cases hb1
    obtain ⟨V, w', s, c, g1, g2, g3, g4, g5, g6, g7, g8, g9, g10, g12, key⟩ := h.newChunk hkb hs hv hm hl hn.2.2 hR hpd hz
    rw [g5] at hb1
    injection hb1 with hb1; injection hb1 with hb1 _
    subst hb1
    obtain ⟨q1, _, ⟨d, t', q2, q3, q4⟩, _⟩ := g3.fresh g2 hl.1
    injection q2 with q2 _; subst q2
    have hok := (g4.ok c List.mem_cons_self).hi
    omega

theorem PInv.go_pblind {p0 ps K KS cs pend} (h : PInv p0 ps K KS cs pend) {t : Nat} {ch : Choice} {x : Nat}
    (hs : ¬ (ps.s.pcs t).sees ps.s x) (hb : ¬ ps.backSees t ch x) (v : Byte) :
    pstep (ps.poke x v) (.shared (.go t ch)) = ppokeRes x v (pstep ps (.shared (.go t ch))) := by
  have hg : sstep (ps.poke x v).s (.go t ch) = pokeRes x v (sstep ps.s (.go t ch)) := go_blind hs ch v
  simp only [pstep]
  rw [hg]
  cases ho : sstep ps.s (.go t ch) with
  | error e => rfl
  | ok o =>
    match o, ho with
    | none, _ => rfl
    | some (none, s'), _ => rfl
    | some (some r, s'), ho =>
      simp only [pokeRes]
      show (match (ps.poke x v).px t with
        | some p => if p.pc = .idle then _ else _
        | none => _) = ppokeRes x v (match ps.px t with
        | some p => if p.pc = .idle then _ else _
        | none => _)
      rw [show (ps.poke x v).px t = ps.px t from rfl]
      cases hp : ps.px t with
      | none => rfl
      | some p =>
        simp only
        by_cases hpc : p.pc = .idle
        · rw [if_pos hpc, if_pos hpc]; rfl
        · rw [if_neg hpc, if_neg hpc]
          obtain ⟨e1, _⟩ := h.reach.ret_w ho
          have hroot : p.a.root ≠ 0 → x < p.a.root ∨ p.a.root + 32 ≤ x := fun h0 => Decidable.byContradiction fun hn =>
            hb ⟨p, r, s', hp, hpc, ho, .inl ⟨h0, by omega, by omega⟩⟩
          show PS.resume (PS.poke { ps with s := s' } x v) t p.a r p.pc = ppokeRes x v (PS.resume { ps with s := s' } t p.a r p.pc)
          cases hq : p.pc with
          | idle => exact absurd hq hpc
          | chain n =>
            refine PS.freeNext_poke _ _ _ _ _ _ fun h0 => Decidable.byContradiction fun hn =>
              hb ⟨p, r, s', hp, hpc, ho, .inr (.inr (.inr ⟨n, hq, h0, by omega, by omega⟩))⟩
          | alloc l =>
            cases r with
            | unit => rfl
            | err => rfl
            | block sl =>
              have hsl : x < sl.addr ∨ sl.addr + sl.len ≤ x := Decidable.byContradiction fun hn =>
                hb ⟨p, _, s', hp, hpc, ho, .inr (.inl ⟨sl, rfl, by omega, by omega⟩)⟩
              obtain ⟨w2, _⟩ := h.block_within ho hp hpc
              have := w2 (.inl ⟨l, hq⟩)
              exact ppk_bind (Blind.newChunkAlloc _ _ _ hroot hsl (by omega)) fun _ _ _ => rfl
          | resize q old new =>
            cases r with
            | unit => rfl
            | err => rfl
            | block sl =>
              have hsl : x < sl.addr ∨ sl.addr + sl.len ≤ x := Decidable.byContradiction fun hn =>
                hb ⟨p, _, s', hp, hpc, ho, .inr (.inl ⟨sl, rfl, by omega, by omega⟩)⟩
              have hold : x < q ∨ q + old.size ≤ x := Decidable.byContradiction fun hn =>
                hb ⟨p, _, s', hp, hpc, ho, .inr (.inr (.inl ⟨q, old, new, hq, by omega, by omega⟩))⟩
              obtain ⟨w2, w3⟩ := h.block_within ho hp hpc
              have := w2 (.inr ⟨q, old, new, hq⟩)
              refine ppk_bind (Blind.newChunkAlloc _ _ _ hroot hsl (by omega)) fun b w1 hb1 => ?_
              have hb2 := w3 q old new hq b w1 (by rw [← e1]; exact hb1)
              exact ppk_bind (Blind.copyNonoverlapping _ _ _ (by omega) (by omega)) fun _ _ _ => rfl

end Blink
