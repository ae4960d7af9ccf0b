import Verif.Props.BlinkGrow
import Verif.Props.Room
/-
  C90: `from_iter` collects in place.
-/
namespace Blink

/-! ### Calls of the arena that find room -/

/-- An allocation that fits into the current chunk. -/
theorem Inv.allocate_room {s0 s cs L} (h : Inv s0 s cs L) {l : Layout} (hl : l.Valid) {pos e : Nat} (hroom : s.room = some (pos, e))
    (hfit : pos + l.size + l.align ≤ e) :
    ∃ blk s' cs', Blink.step s (.allocate l) = .ok (.block blk, s') ∧ s'.w.log = s.w.log ∧ Inv s0 s' cs' (Owned.of blk l :: L) ∧
      blk.len = l.size ∧ blk.addr < pos + l.align ∧ s'.room = some (blk.addr + l.size, e) := by
  rw [h.room] at hroom
  cases cs with
  | nil => cases hroom
  | cons c t =>
    simp only [List.head?_cons, Option.map_some, Option.some.injEq, Prod.mk.injEq] at hroom
    obtain ⟨rfl, rfl⟩ := hroom
    have he := h.arena.chunk_rng (c := c) List.mem_cons_self
    obtain ⟨a0, hb, _⟩ := bump_of_cost hl (pos := c.cursor) (e := c.end_) (by omega) he
    rcases h.step' (.allocate hl) with ⟨e, ⟨_, hnc⟩, _⟩ | ⟨r, s', cs', hst, ⟨o, ho, hr⟩, hi⟩
    · rw [hnc.1 c t rfl] at hb; cases hb
    · generalize hw' : s'.w = w' at hr
      cases hr with
      | fast c' t' a hcs hb' =>
        injection hcs with e1 e2
        subst e1; subst e2
        subst ho
        have hi' := hi _ .allocOk
        have hf := bump_facts hl hb'
        exact ⟨⟨a, l.size⟩, s', _, hst, by rw [hw']; rfl, hi', rfl, hf.2.1, by rw [hi'.room]; rfl⟩
      | slow hnf => rw [hnf c t rfl] at hb; cases hb

/-- Growing the last block of the current chunk. -/
theorem Inv.grow_room {s0 s cs L} {o : Owned} (h : Inv s0 s cs (o :: L)) {p e : Nat} {old new : Layout} (hf : o.Fits p old) (hv : new.Valid)
    (hroom : s.room = some (p + old.size, e)) (ha : new.align ≤ old.align) (hs : old.size < new.size) (hfit : p + new.size ≤ e) :
    ∃ s' cs', Blink.step s (.resize p old new) = .ok (.block ⟨p, new.size⟩, s') ∧ s'.w.log = s.w.log ∧
      Inv s0 s' cs' (Owned.of ⟨p, new.size⟩ new :: L) ∧ s'.room = some (p + new.size, e) := by
  rw [h.room] at hroom
  cases cs with
  | nil => cases hroom
  | cons c t =>
    simp only [List.head?_cons, Option.map_some, Option.some.injEq, Prod.mk.injEq] at hroom
    obtain ⟨hcur, rfl⟩ := hroom
    rcases h.step' (.resize List.mem_cons_self hf hv) with ⟨e, ⟨_, hnc⟩, _⟩ | ⟨r, s', cs', hst, ⟨q, ho, hr⟩, hi⟩
    · exact absurd ⟨ha, by omega, hfit⟩ (hnc.1.2.1 c t rfl)
    · generalize hw' : s'.w = w' at hr
      cases hr with
      | same ha' hs' => omega
      | grow c' t' hcs ha' hs' htip' hfit' =>
        injection hcs with h1 h2
        subst h1; subst h2
        subst ho
        have hi' := hi _ (.resizeOk List.mem_cons_self hf)
        rw [List.erase_cons_head] at hi'
        exact ⟨s', _, hst, by rw [hw']; rfl, hi', by rw [hi'.room]; rfl⟩
      | move s1 w1 cs1 hn hg => exact absurd ⟨ha, by omega, hfit⟩ (hg c t rfl)
      | fail w1 cs1 hn hg => exact absurd ⟨ha, by omega, hfit⟩ (hg c t rfl)

/-- The first allocation of an arena. -/
theorem Inv.allocate_first {s0 s cs L} (h : Inv s0 s cs L) {l : Layout} (hl : l.Valid) (h0 : s.a.root = 0) {resp s'}
    (hs : Blink.step s (.allocate l) = .ok (resp, s')) :
    (resp = .err ∧ s'.w.log = s.w.log ∧ USIZE ≤ s.a.minChunk + max l.size 64 + l.align + 32 + 16391) ∨
    (resp = .err ∧ ∃ R, s'.w.log = .refused R :: s.w.log) ∨
    ∃ R B blk cs', resp = .block blk ∧ s.w.oracle s.w.calls = some B ∧ s'.w.log = .alloc R B :: s.w.log ∧
      Inv s0 s' cs' (Owned.of blk l :: L) ∧ blk.len = l.size ∧ blk.addr < B.addr + 32 + l.align ∧
      s'.room = some (blk.addr + l.size, B.addr + B.len) := by
  have hcs : cs = [] := by
    rw [h.root] at h0
    exact (rootOf_eq_zero h.arena.ok).mp h0
  subst hcs
  rcases h.step' (.allocate hl) with ⟨e, _, he⟩ | ⟨r, s1, cs', hst, ⟨o, ho, hr⟩, hi⟩
  · rw [he] at hs; cases hs
  rw [hst] at hs
  injection hs with hs
  injection hs with e1 e2
  subst e1 e2 ho
  generalize hw' : s1.w = w' at hr
  cases hr with
  | fast c t a hcs => cases hcs
  | slow hnf hsl =>
    cases hsl with
    | tooBig hreq =>
      left
      refine ⟨rfl, rfl, ?_⟩
      have h1 := chunkReq_none hreq
      have h2 : need (rootCum []) s.a.minChunk l ≤ s.a.minChunk + max l.size 64 + l.align + 32 := by
        unfold need rootCum
        simp only [List.head?_nil, Option.map_none]
        split <;> omega
      omega
    | refused R => right; left; exact ⟨rfl, _, rfl⟩
    | ok R sl m' hreq ho hf hb =>
      right; right
      have hi' := hi _ .allocOk
      have hfa := bump_facts hl hb
      refine ⟨_, sl, _, _, rfl, ho, rfl, hi', rfl, hfa.2.1, ?_⟩
      rw [hi'.room]
      simp only [newChunk, List.head?_cons, Option.map_some]

/-- Writing inside a block leaves the room alone. -/
theorem Inv.writeIn_room {s0 s cs L} (h : Inv s0 s cs L) {blk : Slice} {l : Layout} (ho : Owned.of blk l ∈ L) {a n al : Nat} {f : Nat → Byte} {w'}
    (hw : writeIn blk a n al f s.w = .ok ((), w')) : ({ s with w := w' } : St).room = s.room ∧ w'.log = s.w.log := by
  unfold writeIn at hw
  split at hw
  · rename_i hc
    cases hw
    have hi := h.setMem (f := f) ho (a := a) (n := n) hc.2.1 hc.2.2.1
    exact ⟨by rw [hi.room, h.room], rfl⟩
  · cases hw

/-! ### The buffer stays at the end of the chunk -/

/-- Where the buffer is. `N`: how many items it may have to hold; `one`: may the arena make its first request? -/
inductive Place (one : Bool) (log0 : List BaseEvent) (t : RTy) (N : Nat) (s : St) (g : Guard) : Prop
  | room {pos e} (hb : g.blk = none) (hr : s.room = some (pos, e)) (hf : pos + (32 + 2 * t.align + N * t.size) ≤ e) (hl : s.w.log = log0) :
    Place one log0 t N s g
  | empty (ho : one = true) (hb : g.blk = none) (hr : s.a.root = 0) (hm : s.a.minChunk + (32 + 2 * t.align + N * t.size) + 16512 ≤ USIZE)
      (hB : ∀ B, s.w.oracle s.w.calls = some B → 32 + (32 + 2 * t.align + N * t.size) ≤ B.len) (hl : s.w.log = log0) : Place one log0 t N s g
  | tip {blk e} (hb : g.blk = some blk) (hr : s.room = some (blk.addr + g.layout.size, e)) (hf : blk.addr + (24 + t.align + N * t.size) ≤ e)
      (hl : s.w.log = log0 ∨ (one = true ∧ ∃ R B, s.w.log = .alloc R B :: log0)) : Place one log0 t N s g

theorem fillLayout_some {t : RTy} {nd : Bool} {hint N : Nat} (ht : t.OK) (hN : hint ≤ N) (hI : 32 + 2 * t.align + N * t.size ≤ ISIZE) :
    ∃ l off, fillLayout t nd hint = some (l, off) := by
  have hm := Nat.mul_le_mul_right t.size hN
  unfold fillLayout arrayLayout
  rw [if_pos (by omega)]
  simp only [Option.bind_eq_bind, Option.bind_some]
  cases nd with
  | true => exact ⟨_, _, rfl⟩
  | false =>
    simp only [Bool.false_eq_true, if_false]
    unfold Layout.extend
    simp only
    rw [if_pos]
    · exact ⟨_, _, rfl⟩
    · rw [dropItem_zero ht.align, up_of_mod (pow2_pos ht.align) (valueOff_facts ht.align).2, dropItem_align]
      have := (up_facts DROPS_SIZE (pow2_pos ht.align)).2.1
      have hd : DROPS_SIZE = 24 := rfl
      unfold valueOff
      omega

theorem dassert_same {c : Prop} [Decidable c] {msg : String} {w w' : World} {a} (h : dassert c msg w = .ok (a, w')) : w' = w := by
  unfold dassert at h
  split at h <;> cases h
  rfl

theorem fillStart_place {b0 b bk cs items K m0} {r : Nat} {nd : Bool} {g : Guard} {hint N : Nat} {om : Option Nat} {one log0}
    (h : Wk b0 b bk cs items (g.blk.map fun s => Owned.of s g.layout).toList K m0) (hk : b0.kind.isAny = false)
    (hp : Place one log0 (b0.types r) N b.s g) (hN : hint ≤ N) (hI : 32 + 2 * (b0.types r).align + N * (b0.types r).size ≤ ISIZE)
    (hs : ∀ blk, g.blk = some blk → g.layout.size ≤ blk.len ∧ g.layout.size < arrOff (b0.types r) nd + hint * (b0.types r).size ∧
      g.layout.align = if nd then (b0.types r).align else max 8 (b0.types r).align)
    {o b'} (he : b.fillStart r nd g hint om = .ok (o, b')) :
    (one = true ∧ g.blk = none ∧ o = none ∧ ∃ R, b'.s.w.log = .refused R :: log0) ∨
    ∃ g', o = some g' ∧ Place one log0 (b0.types r) N b'.s g' ∧ g'.blk ≠ none ∧ fillLimit nd g' hint = hint ∧
      g'.layout.size = arrOff (b0.types r) nd + hint * (b0.types r).size := by
  have ht := h.start.types r
  have hty : b.types = b0.types := h.types
  have hki : b.kind.isAny = false := by rw [h.kind]; exact hk
  have hinv := h.inv.toInv hk
  unfold BState.fillStart at he
  rw [hty] at he
  generalize hT : b0.types r = t at *
  dsimp only at he
  obtain ⟨l, off, hl⟩ := fillLayout_some (nd := nd) ht hN hI
  rw [hl] at he
  obtain ⟨l1, l2, l3, l4⟩ := fillLayout_facts ht hl
  have hls := fillLayout_size hl ht.align
  have hm := Nat.mul_le_mul_right t.size hN
  have hla : l.align ≤ 8 + t.align := by rw [l4]; split <;> omega
  simp only at he
  rw [ebind_ok' (BState.mem_id (dassert_ok (fun _ => l2)))] at he
  simp only at he
  have fin : ∀ (b1 : BState) (cs1 : List Chunk) (L1 : List Owned) (blk : Slice) (e : Nat), Inv b0.s b1.s cs1 (Owned.of blk l :: L1) → blk.len = l.size →
      b1.s.room = some (blk.addr + l.size, e) → blk.addr + (24 + t.align + N * t.size) ≤ e →
      (b1.s.w.log = log0 ∨ (one = true ∧ ∃ R B, b1.s.w.log = .alloc R B :: log0)) →
      ((do
            let ((), b) ← b1.mem (dassert (l.size ≤ blk.len) "len == full_layout.size()")
            let cap := if l.size < blk.len then (blk.len - arrOff t nd) / t.size else hint
            let g : Guard := { g with blk := some blk, layout := l, cap := cap }
            match om with
            | none => pure (some g, b)
            | some x => do
              let ((), b) ← b.mem (dassert (g.count < g.cap) "self.count < self.cap")
              let ((), b) ← b.mem (Blink.writeIn blk (blk.addr + arrOff t nd + g.count * t.size) t.size t.align (slotByte t (.ok x)))
              pure (some { g with count := g.count + 1 }, b)) : Except Fault (Option Guard × BState)) = .ok (o, b') →
      ∃ g', o = some g' ∧ Place one log0 t N b'.s g' ∧ g'.blk ≠ none ∧ fillLimit nd g' hint = hint ∧ g'.layout.size = arrOff t nd + hint * t.size := by
    intro b1 cs1 L1 blk e hi hlen hr hf hlog he
    rw [ebind_ok' (BState.mem_id (dassert_ok (fun _ => by omega)))] at he
    simp only at he
    have hlim : ∀ c k, fillLimit nd ⟨some blk, c, if l.size < blk.len then k else hint, l⟩ hint = hint := by
      intro c k
      unfold fillLimit
      cases nd with
      | true => rfl
      | false =>
        simp only [Bool.false_eq_true, if_false]
        rw [if_neg (by omega)]
    cases om with
    | none =>
      cases he
      exact ⟨_, rfl, .tip rfl hr hf hlog, nofun, hlim _ _, l3⟩
    | some x =>
      simp only at he
      obtain ⟨⟨_, b4⟩, h4, he⟩ := ebind_split he
      obtain ⟨⟨_, b5⟩, h5, he⟩ := ebind_split he
      cases he
      have hb4 : b4.s = b1.s := by
        unfold BState.mem at h4
        obtain ⟨⟨_, w⟩, h6, h7⟩ := ebind_split h4
        cases h7
        rw [dassert_same h6]
      unfold BState.mem at h5
      obtain ⟨⟨_, w⟩, h6, h7⟩ := ebind_split h5
      cases h7
      rw [hb4] at h6 ⊢
      obtain ⟨r1, r2⟩ := hi.writeIn_room List.mem_cons_self h6
      refine ⟨_, rfl, .tip rfl (by rw [r1]; exact hr) hf (by dsimp only; rw [r2]; exact hlog), nofun, hlim _ _, l3⟩
  cases hp with
  | @room pos e hb hr hf hlog =>
    rw [hb] at he hinv
    obtain ⟨blk, s', cs', e1, e2, e3, e4, e5, e6⟩ := hinv.allocate_room l1 hr (by omega)
    unfold BState.allocate at he
    rw [AKind.step_arena hki, e1] at he
    right
    exact fin _ _ _ blk e e3 e4 e6 (by omega) (.inl (e2.trans hlog)) he
  | empty ho hb hr hmin hB hlog =>
    rw [hb] at he hinv
    unfold BState.allocate at he
    rw [AKind.step_arena hki] at he
    obtain ⟨⟨o1, b1⟩, h1, he⟩ := ebind_split he
    obtain ⟨⟨resp, s'⟩, h2, h1⟩ := ebind_split h1
    rcases hinv.allocate_first l1 hr h2 with ⟨_, _, hbig⟩ | ⟨rfl, R, hlog'⟩ | ⟨R, B, blk, cs', rfl, horc, hlog', hi, hlen, hlt, hroom⟩
    · omega
    · cases h1
      cases he
      exact .inl ⟨ho, hb, rfl, R, by rw [← hlog]; exact hlog'⟩
    · cases h1
      have := hB B horc
      right
      exact fin _ _ _ blk _ hi hlen hroom (by omega) (.inr ⟨ho, R, B, by rw [← hlog]; exact hlog'⟩) he
  | @tip blk e hb hr hf hlog =>
    obtain ⟨g1, g2, g3⟩ := hs blk hb
    rw [hb] at he hinv
    simp only [Option.map_some, Option.toList, List.cons_append, List.nil_append] at hinv
    obtain ⟨s', cs', e1, e2, e3, e4⟩ := hinv.grow_room (p := blk.addr) (old := g.layout) (new := l) ⟨rfl, rfl, Nat.le_refl _, g1⟩ l1 hr
      (by omega) (by omega) (by omega)
    simp only at he
    unfold BState.grow at he
    rw [if_neg (by rw [hki]; nofun), AKind.step_arena hki, e1] at he
    right
    exact fin _ _ _ ⟨blk.addr, l.size⟩ e e3 rfl e4 hf (by rw [show ({ b with s := s' } : BState).s.w.log = s'.w.log from rfl, e2]; exact hlog) he

/-! ### One answer of the iterator -/

theorem BState.mem_log {α} {b b' : BState} {x : M α} {a : α} (hx : LQuiet x) (h : b.mem x = .ok (a, b')) : b'.s.w.log = b.s.w.log := by
  unfold BState.mem at h
  obtain ⟨⟨c, w⟩, h1, h2⟩ := ebind_split h
  cases h2
  exact hx _ _ _ h1

theorem lquiet_arenaDealloc (root p n : Nat) : LQuiet (arenaDealloc root p n) := by
  intro w a w' h
  unfold arenaDealloc at h
  split at h
  · cases h; rfl
  · refine LQuiet.bind (f := fun new => cellCas root p new >>= fun _ => pure ()) ?_ (fun _ => .bind ?_ (fun _ => ?_)) _ _ _ h
    · intro w a w' h
      unfold addU at h
      repeat' split at h
      all_goals cases h
      all_goals rfl
    · refine LQuiet.bind (fun w a w' h => ?_) (fun v => ?_)
      · unfold loadWord at h
        repeat' split at h
        all_goals cases h
        all_goals rfl
      · split
        · exact .bind (lquiet_storeWord _ _) fun _ => fun w a w' h => by cases h; rfl
        · intro w a w' h; cases h; rfl
    · intro w a w' h; cases h; rfl

theorem flush_log {b b' : BState} {r nd g o} (hk : b.kind.isAny = false) (h : b.flush r nd g = .ok (o, b')) : b'.s.w.log = b.s.w.log := by
  unfold BState.flush at h
  simp only at h
  split at h
  · cases h; rfl
  split at h
  · split at h
    · cases h; rfl
    · obtain ⟨⟨_, b1⟩, h1, h⟩ := ebind_split h
      obtain ⟨b2, h2, h⟩ := ebind_split h
      cases h
      have e1 : b1.s.w.log = b.s.w.log := by
        unfold BState.initSlice at h1
        obtain ⟨⟨_, b3⟩, h3, h1⟩ := ebind_split h1
        obtain ⟨⟨_, b4⟩, h4, h1⟩ := ebind_split h1
        cases h1
        exact (BState.mem_log (lquiet_initDrops _ _ _) h4).trans (BState.mem_log (lquiet_dassert _ _) h3)
      unfold BState.add at h2
      obtain ⟨⟨_, b3⟩, h3, h2⟩ := ebind_split h2
      cases h2
      exact (BState.mem_log (lquiet_storeWord _ _) h3).trans e1
  · obtain ⟨b1, h1, h⟩ := ebind_split h
    cases h
    unfold BState.dealloc at h1
    split at h1
    · rename_i hk'; rw [hk'] at hk; cases hk
    · obtain ⟨⟨_, st⟩, h2, h1⟩ := ebind_split h1
      cases h1
      unfold Blink.step at h2
      obtain ⟨⟨_, w⟩, h3, h2⟩ := ebind_split h2
      cases h2
      exact lquiet_arenaDealloc _ _ _ _ _ _ h3

/-- What is known about the waiting call. -/
inductive At (tr : List (BOp × BResp)) (t : RTy) (nd : Bool) (g : Guard) : Phase → Prop
  | hint0 (hy : yielded tr = 0) (hc : g.count = 0) : At tr t nd g .hint0
  | fill {lim} (hy : yielded tr = g.count) (hl : g.count < lim) (hs : g.layout.size = arrOff t nd + lim * t.size) : At tr t nd g (.fill lim)
  | one (hy : yielded tr = g.count) (hs : g.blk ≠ none → g.layout.size = arrOff t nd + g.count * t.size) : At tr t nd g .one
  | last {tr1 q tr2} (hn : tr = tr1 ++ (.next none, q) :: tr2) : At tr t nd g .one
  | hint {x} (hy : yielded tr = g.count + 1) (hs : g.blk ≠ none → g.layout.size = arrOff t nd + g.count * t.size) : At tr t nd g (.hint x)

theorem At.enter {tr : List (BOp × BResp)} {t nd} {g : Guard} {lim : Nat} (hy : yielded tr = g.count) (hl : g.count ≤ lim)
    (hs : g.layout.size = arrOff t nd + lim * t.size) : At tr t nd g (fillPhase g.count lim) := by
  unfold fillPhase
  split
  · exact .fill hy (by assumption) hs
  · have : lim = g.count := by omega
    rw [this] at hs
    exact .one hy (fun _ => hs)

structure InPlace (one : Bool) (log0 : List BaseEvent) (t : RTy) (N : Nat) (tr : List (BOp × BResp)) (r : Nat) (b : BState) : Prop where
  top : ∃ nd g ph fs, b.frames = .iter r nd g ph :: fs ∧ Place one log0 t N b.s g ∧ At tr t nd g ph

/-- What the log shows when the call answered `resp`. -/
def Served (one : Bool) (log0 : List BaseEvent) (resp : BResp) (log : List BaseEvent) : Prop :=
  ((∀ a n x, resp ≠ .iterErr a n x) ∧ (log = log0 ∨ (one = true ∧ ∃ R B, log = .alloc R B :: log0))) ∨
  (one = true ∧ (∃ a n x, resp = .iterErr a n x) ∧ ∃ R, log = .refused R :: log0)

theorem Place.log {one log0 t N s g} (h : Place one log0 t N s g) : s.w.log = log0 ∨ (one = true ∧ ∃ R B, s.w.log = .alloc R B :: log0) := by
  cases h with
  | room _ _ _ h => exact .inl h
  | empty _ _ _ _ _ h => exact .inl h
  | tip _ _ _ h => exact h

theorem Place.same {one log0 t N s s' g g'} (h : Place one log0 t N s g) (h1 : s'.room = s.room) (h2 : s'.w.log = s.w.log) (h3 : g'.blk = g.blk)
    (h4 : g'.layout = g.layout) (h5 : g.blk ≠ none) : Place one log0 t N s' g' := by
  cases h with
  | room hb => exact absurd hb h5
  | empty _ hb => exact absurd hb h5
  | tip hb hr hf hl => exact .tip (h3.trans hb) (by rw [h1, h4]; exact hr) hf (by rw [h2]; exact hl)

/-- The buffer for this answer of `size_hint` is not larger than `N`. -/
def HintFits (N : Nat) (tr : List (BOp × BResp)) (l : Nat) (u : Option Nat) : Prop :=
  max l 8 ≤ N ∧ ∀ c, yielded tr = c + 1 → max c 8 + (max l (min (u.getD (max c 8)) (max c 8)) + 1) ≤ N

theorem sizeHintAndOne_le {l u c h} (hs : sizeHintAndOne l u c = some h) : h = c + (max l (min (u.getD c) c) + 1) := by
  cases u with
  | none => have := sizeHintAndOne_none hs; simp only [Option.getD_none, Nat.min_self]; exact this
  | some u => exact sizeHintAndOne_some hs

theorem sizeHintAndOne_ne {l u c} (h : c + (max l (min (u.getD c) c) + 1) < USIZE) : sizeHintAndOne l u c ≠ none := by
  intro hs
  cases u with
  | none =>
    simp only [Option.getD_none] at h
    unfold sizeHintAndOne checkedAdd at hs
    simp only [Option.bind_eq_bind] at hs
    rw [if_pos (by omega), Option.bind_some, if_pos (by omega)] at hs
    cases hs
  | some u =>
    simp only [Option.getD_some] at h
    unfold sizeHintAndOne checkedAdd at hs
    simp only [Option.bind_eq_bind] at hs
    rw [if_pos (by omega), Option.bind_some, if_pos (by omega)] at hs
    cases hs

theorem InPlace.hint {b0 b b' : BState} {bk one log0 N tr r lower upper resp} (h : InPlace one log0 (b0.types r) N tr r b) (hR : BReach b0 b bk)
    (hk : b0.kind.isAny = false) (hz : (b0.types r).size ≠ 0) (hI : 32 + 2 * (b0.types r).align + N * (b0.types r).size ≤ ISIZE)
    (hN : HintFits N tr lower upper) (hs : bstep b (.hint lower upper) = .ok (resp, b')) :
    Served one log0 resp b'.s.w.log ∧ ∀ q, resp = .wait q → InPlace one log0 (b0.types r) N (tr ++ [(.hint lower upper, resp)]) r b' := by
  obtain ⟨nd, g, ph, fs, hf, hp, hat⟩ := h
  obtain ⟨cs, items, hw⟩ := hR.wk
  obtain ⟨fb, fbs, _, hok, hw1⟩ := hw.pop hf nofun
  obtain ⟨vs, hok⟩ := hok
  have hki : b.kind.isAny = false := by rw [hw.kind]; exact hk
  have hNI : N < USIZE := by
    have : N * 1 ≤ N * (b0.types r).size := Nat.mul_le_mul_left _ (by omega)
    have : ISIZE < USIZE := by decide
    omega
  simp only [bstep, hf, BState.resume] at hs
  have hy : yielded (tr ++ [(.hint lower upper, resp)]) = yielded tr := by rw [yielded_append]; rfl
  -- `fill` begins
  have key : ∀ (hint : Nat) (om : Option Nat) (res : Nat → Nat → BResp), (∀ a n, ∃ x, res a n = .iterErr a n x) → hint ≤ N → g.count + om.toList.length ≤ hint →
      yielded tr = g.count + om.toList.length → (g.blk ≠ none → g.layout.size = arrOff (b0.types r) nd + g.count * (b0.types r).size ∧ om ≠ none) →
      (do
        match ← ({ b with frames := fs } : BState).fillStart r nd g hint om with
        | (some g, b) => b.wait (.iter r nd g (fillPhase g.count (fillLimit nd g hint)))
        | (none, b) => do
          let ((a, n), b) ← b.flush r nd g
          pure (res a n, b)) = Except.ok (resp, b') →
      Served one log0 resp b'.s.w.log ∧ ∀ q, resp = .wait q → InPlace one log0 (b0.types r) N (tr ++ [(.hint lower upper, resp)]) r b' := by
    intro hint om res hres hle hc hyc hsz hs
    obtain ⟨⟨o, b1⟩, hfs, hs⟩ := ebind_split hs
    have hcnt : ∀ g', o = some g' → g'.count = g.count + om.toList.length := by
      rintro g' rfl
      rw [fillStart_count hfs]
      cases om <;> rfl
    rcases fillStart_place (b := { b with frames := fs }) (one := one) (log0 := log0) (N := N) (by simpa [Frame.own] using hw1) hk hp hle hI (fun blk hb => by
        obtain ⟨s1, s2⟩ := hsz (by rw [hb]; nofun)
        have hB := hok.some_ blk hb
        refine ⟨hB.len, ?_, hB.al⟩
        rw [s1]
        have : g.count < hint := by cases om with
          | none => exact absurd rfl s2
          | some x => exact hc
        have := mul_succ_le (s := (b0.types r).size) this
        omega) hfs with ⟨h1, h2, rfl, R, h3⟩ | ⟨g', rfl, h1, h2, h3, h4⟩
    · obtain ⟨⟨⟨a, n⟩, b2⟩, h5, hs⟩ := ebind_split hs
      unfold BState.flush at h5
      rw [h2] at h5
      cases h5
      simp only at hs
      obtain ⟨x, hx⟩ := hres (b1.types r).align 0
      rw [hx] at hs
      cases hs
      exact ⟨.inr ⟨h1, ⟨_, _, _, rfl⟩, R, h3⟩, nofun⟩
    · simp only at hs
      rw [h3] at hs
      unfold BState.wait at hs
      cases hs
      have hc' := hcnt _ rfl
      refine ⟨.inl ⟨nofun, h1.log⟩, fun q _ => ⟨nd, g', _, _, rfl, h1, .enter ?_ (by omega) h4⟩⟩
      rw [hy, hyc, hc']
  unfold BState.iterHint at hs
  have hF : FASTER_START = 8 := rfl
  cases hat with
  | hint0 a1 a2 =>
    simp only at hs
    have hb := hok.hint0 rfl
    split at hs
    · exact key _ none (fun a n => .iterErr a n none) (fun a n => ⟨_, rfl⟩) (by rw [hF]; exact hN.1) (by rw [a2]; simp) (by rw [a1, a2]; rfl)
        (fun hn => absurd hb hn) hs
    · cases hs
      exact ⟨.inl ⟨nofun, hp.log⟩, fun q _ => ⟨nd, g, _, _, rfl, hp, .one (by rw [hy, a1, a2]) (fun hn => absurd hb hn)⟩⟩
  | @hint x a1 a2 =>
    simp only at hs
    rw [hF] at hs
    have hN2 := hN.2 g.count a1
    split at hs
    · rename_i hsz
      exact absurd hsz (sizeHintAndOne_ne (by omega))
    · rename_i hint hsz
      have hle := sizeHintAndOne_le hsz
      exact key hint (some x) (fun a n => .iterErr a n (some x)) (fun a n => ⟨_, rfl⟩) (by omega)
        (by simp only [Option.toList, List.length_singleton]; omega) (by rw [a1]; rfl) (fun hn => ⟨a2 hn, nofun⟩) hs
  | fill => cases hs
  | one => cases hs
  | last => cases hs

theorem InPlace.next {b0 b b' : BState} {bk one log0 N tr r x resp} (h : InPlace one log0 (b0.types r) N tr r b) (hR : BReach b0 b bk)
    (hk : b0.kind.isAny = false) (hF : Fused (tr ++ [(.next x, resp)])) (hs : bstep b (.next x) = .ok (resp, b')) :
    Served one log0 resp b'.s.w.log ∧ ∀ q, resp = .wait q → InPlace one log0 (b0.types r) N (tr ++ [(.next x, resp)]) r b' := by
  obtain ⟨nd, g, ph, fs, hf, hp, hat⟩ := h
  obtain ⟨cs, items, hw⟩ := hR.wk
  obtain ⟨fb, fbs, _, hok, hw1⟩ := hw.pop hf nofun
  obtain ⟨vs, hok⟩ := hok
  have hki : b.kind.isAny = false := by rw [hw.kind]; exact hk
  have hinv := hw1.inv.toInv hk
  simp only [bstep, hf, BState.resume] at hs
  have hy : yielded (tr ++ [(.next x, resp)]) = yielded tr + yielded [(.next x, resp)] := yielded_append ..
  unfold BState.iterNext at hs
  cases hat with
  | @fill lim a1 a2 a3 =>
    simp only at hs
    cases hb : g.blk with
    | none => rw [hb] at hs; cases hs
    | some blk =>
      have hbn : g.blk ≠ none := by rw [hb]; nofun
      rw [hb] at hs
      simp only [Frame.own, hb, Option.map_some, Option.toList, List.cons_append, List.nil_append] at hinv
      have wr : ∀ {a n al : Nat} {f : Nat → Byte} {b1 : BState} {u}, ({ b with frames := fs } : BState).mem (writeIn blk a n al f) = .ok (u, b1) →
          b1.s.room = b.s.room ∧ b1.s.w.log = b.s.w.log := by
        intro a n al f b1 u hm
        unfold BState.mem at hm
        obtain ⟨⟨_, w⟩, h6, h7⟩ := ebind_split hm
        cases h7
        exact hinv.writeIn_room List.mem_cons_self h6
      cases x with
      | some v =>
        simp only at hs
        obtain ⟨⟨_, b1⟩, hm, hs⟩ := ebind_split hs
        obtain ⟨r1, r2⟩ := wr hm
        unfold BState.wait at hs
        cases hs
        have hp' : Place one log0 (b0.types r) N b1.s { g with count := g.count + 1 } := hp.same r1 r2 rfl rfl hbn
        refine ⟨.inl ⟨nofun, hp'.log⟩, fun q _ => ⟨nd, _, _, _, rfl, by rw [hb] at hp'; exact hp', ?_⟩⟩
        exact .enter (g := { g with blk := some blk, count := g.count + 1 }) (by rw [hy, yielded_some, a1]) a2 a3
      | none =>
        simp only at hs
        split at hs
        · obtain ⟨⟨_, b1⟩, hm, hs⟩ := ebind_split hs
          obtain ⟨r1, r2⟩ := wr hm
          unfold BState.wait at hs
          cases hs
          have hp' : Place one log0 (b0.types r) N b1.s g := hp.same r1 r2 rfl rfl hbn
          exact ⟨.inl ⟨nofun, hp'.log⟩, fun q _ => ⟨nd, _, _, _, rfl, hp', .last rfl⟩⟩
        · cases hs
          exact ⟨.inl ⟨nofun, hp.log⟩, fun q _ => ⟨nd, _, _, _, rfl, hp, .last rfl⟩⟩
  | one a1 a2 =>
    cases x with
    | none =>
      simp only at hs
      obtain ⟨⟨⟨a, n⟩, b1⟩, h1, hs⟩ := ebind_split hs
      cases hs
      refine ⟨.inl ⟨nofun, ?_⟩, nofun⟩
      rw [flush_log (b := { b with frames := fs }) hki h1]
      exact hp.log
    | some v =>
      cases hs
      exact ⟨.inl ⟨nofun, hp.log⟩, fun q _ => ⟨nd, _, _, _, rfl, hp, .hint (by rw [hy, yielded_some, a1]) a2⟩⟩
  | @last tr1 q tr2 a1 =>
    cases x with
    | none =>
      simp only at hs
      obtain ⟨⟨⟨a, n⟩, b1⟩, h1, hs⟩ := ebind_split hs
      cases hs
      refine ⟨.inl ⟨nofun, ?_⟩, nofun⟩
      rw [flush_log (b := { b with frames := fs }) hki h1]
      exact hp.log
    | some v =>
      subst a1
      have := hF tr1 q (tr2 ++ [(.next (some v), resp)]) (by simp)
      rw [yielded_append, yielded_some] at this
      omega
  | hint0 => cases hs
  | hint => cases hs

/-- All hints of the iterator fit. -/
def HintsFit (N : Nat) (tr : List (BOp × BResp)) : Prop := ∀ tr1 l u q tr2, tr = tr1 ++ (.hint l u, q) :: tr2 → HintFits N tr1 l u

theorem InPlace.step {b0 b b' : BState} {bk one log0 N tr r op resp} (h : InPlace one log0 (b0.types r) N tr r b) (hR : BReach b0 b bk)
    (hk : b0.kind.isAny = false) (hz : (b0.types r).size ≠ 0) (hI : 32 + 2 * (b0.types r).align + N * (b0.types r).size ≤ ISIZE)
    (ho : op.answers) (hF : Fused (tr ++ [(op, resp)])) (hN : HintsFit N (tr ++ [(op, resp)])) (hs : bstep b op = .ok (resp, b')) :
    Served one log0 resp b'.s.w.log ∧ ∀ q, resp = .wait q → InPlace one log0 (b0.types r) N (tr ++ [(op, resp)]) r b' := by
  cases op <;> try (cases ho; done)
  case hint l u => exact h.hint hR hk hz hI (hN tr l u resp [] rfl) hs
  case next => exact h.next hR hk hF hs
  case nth x =>
    obtain ⟨nd, g, ph, fs, hf, _⟩ := h
    simp only [bstep, hf, BState.resume] at hs
    cases hs

theorem HintsFit.prefix {N : Nat} {tr tr' : List (BOp × BResp)} (h : HintsFit N (tr ++ tr')) : HintsFit N tr := by
  rintro tr1 l u q tr2 rfl
  exact h tr1 l u q (tr2 ++ tr') (by simp)

theorem InPlace.steps {b0 b1 b2 b3 : BState} {bk1 bk2 one log0 N tr r op resp} (h : InPlace one log0 (b0.types r) N [] r b1) (hR : BReach b0 b1 bk1)
    (hk : b0.kind.isAny = false) (hz : (b0.types r).size ≠ 0) (hI : 32 + 2 * (b0.types r).align + N * (b0.types r).size ≤ ISIZE)
    (ht : BSteps b0 b0.legal b1 bk1 tr b2 bk2) (hw : ∀ a ∈ tr, a.1.answers ∧ ∃ q, a.2 = .wait q)
    (ho : op.answers) (hF : Fused (tr ++ [(op, resp)])) (hN : HintsFit N (tr ++ [(op, resp)])) (hs : bstep b2 op = .ok (resp, b3)) :
    Served one log0 resp b3.s.w.log := by
  suffices H : InPlace one log0 (b0.types r) N tr r b2 from (H.step (hR.extend ht) hk hz hI ho hF hN hs).1
  have hF1 := hF.prefix
  have hN1 := hN.prefix
  clear hF hN hs ho
  induction ht with
  | nil => exact h
  | @snoc tr1 _ _ op1 resp1 _ _ hprev _ hl hs1 ha ih =>
    have ih := ih (fun a hm => hw a (List.mem_append_left _ hm)) hF1.prefix hN1.prefix
    obtain ⟨h1, q1, h2⟩ := hw (op1, resp1) (List.mem_append_right _ List.mem_cons_self)
    exact (ih.step (hR.extend hprev) hk hz hI h1 hF1 hN1 hs1).2 q1 h2

theorem InPlace.start {b0 b b1 : BState} {bk e r q one log0 N} (h : BReach b0 b bk) (hz : (b0.types r).size ≠ 0)
    (hs : bstep b (.fromIter e r) = .ok (.wait q, b1)) (hp : ∀ g : Guard, g.blk = none → Place one log0 (b0.types r) N b.s g) :
    InPlace one log0 (b0.types r) N [] r b1 := by
  obtain ⟨cs, items, hwk⟩ := h.wk
  have ht : b.types = b0.types := hwk.types
  simp only [bstep, BState.start] at hs
  rw [if_neg (by rw [ht]; exact hz)] at hs
  rw [wait_eq hs]
  exact ⟨_, _, _, _, rfl, hp _ rfl, .hint0 rfl rfl⟩

theorem TrueLower.fits {n : Nat} {tr : List (BOp × BResp)} (h : TrueLower n tr) : HintsFit (2 * n + 15) tr := by
  rintro tr1 l u q tr2 rfl
  have := h.2 tr1 l u q tr2 rfl
  exact ⟨by omega, fun c hc => by omega⟩

/-! ### C90 -/

/-- The upper bounds of the iterator's `size_hint`s are there, and no larger than the items it has left, of `n` in all. -/
def TightUpper (n : Nat) (tr : List (BOp × BResp)) : Prop :=
  ∀ tr1 l u q tr2, tr = tr1 ++ (.hint l u, q) :: tr2 → ∃ k, u = some k ∧ yielded tr1 + k ≤ n

theorem TightUpper.fits {n : Nat} {tr : List (BOp × BResp)} (h : TightUpper n tr) (hl : TrueLower n tr) : HintsFit (n + 8) tr := by
  rintro tr1 l u q tr2 rfl
  have h1 := hl.2 tr1 l u q tr2 rfl
  obtain ⟨k, rfl, h2⟩ := h tr1 l u q tr2 rfl
  refine ⟨by omega, fun c hc => ?_⟩
  simp only [Option.getD_some]
  omega

/-- C90: if the current chunk has room for the list record and `2 * n + 15` items, `from_iter` collects the `n` items of an iterator without
asking the underlying allocator for anything, and does not run out of memory: the buffer starts in the chunk and grows in place. For iterators
that yield nothing after `None` and whose lower bounds are true; upper bounds may be wrong. The user code run by the iterator does not use the
`Blink`. -/
theorem C90_in_place {b0 b b1 b2 b3 : BState} {bk bk1 bk2 : BBook} {e r q n pos end_} {tr : List (BOp × BResp)} {op resp}
    (h : BReach b0 b bk) (hk : b0.kind.isAny = false) (hz : (b0.types r).size ≠ 0) (hov : b.over = false) (hl : b0.legal bk (.fromIter e r))
    (hs : bstep b (.fromIter e r) = .ok (.wait q, b1)) (ha : BAfter b0.types b0.kind bk (.fromIter e r) (.wait q) bk1)
    (ht : BSteps b0 b0.legal b1 bk1 tr b2 bk2) (hw : ∀ a ∈ tr, a.1.answers ∧ ∃ q, a.2 = .wait q)
    (ho : op.answers) (hs3 : bstep b2 op = .ok (resp, b3)) (hF : Fused (tr ++ [(op, resp)])) (hn : TrueLower n (tr ++ [(op, resp)]))
    (hroom : b.s.room = some (pos, end_)) (hfit : pos + (32 + 2 * (b0.types r).align + (2 * n + 15) * (b0.types r).size) ≤ end_)
    (hI : 32 + 2 * (b0.types r).align + (2 * n + 15) * (b0.types r).size ≤ ISIZE) :
    b3.s.w.log = b.s.w.log ∧ ∀ a k x, resp ≠ .iterErr a k x := by
  have h1 : BReach b0 b1 bk1 := h.extend (.snoc .nil hov hl hs ha)
  have h2 : InPlace false b.s.w.log (b0.types r) (2 * n + 15) [] r b1 := .start h hz hs fun g hg => .room hg hroom hfit rfl
  rcases h2.steps h1 hk hz hI ht hw ho hF hn.fits hs3 with ⟨h3, h4 | ⟨h4, _⟩⟩ | ⟨h3, _⟩
  · exact ⟨h4, h3⟩
  · cases h4
  · cases h3

/-- C90 for iterators whose upper bounds are tight: room for `n + 8` items is enough. -/
theorem C90_tight {b0 b b1 b2 b3 : BState} {bk bk1 bk2 : BBook} {e r q n pos end_} {tr : List (BOp × BResp)} {op resp}
    (h : BReach b0 b bk) (hk : b0.kind.isAny = false) (hz : (b0.types r).size ≠ 0) (hov : b.over = false) (hl : b0.legal bk (.fromIter e r))
    (hs : bstep b (.fromIter e r) = .ok (.wait q, b1)) (ha : BAfter b0.types b0.kind bk (.fromIter e r) (.wait q) bk1)
    (ht : BSteps b0 b0.legal b1 bk1 tr b2 bk2) (hw : ∀ a ∈ tr, a.1.answers ∧ ∃ q, a.2 = .wait q)
    (ho : op.answers) (hs3 : bstep b2 op = .ok (resp, b3)) (hF : Fused (tr ++ [(op, resp)])) (hn : TrueLower n (tr ++ [(op, resp)]))
    (hU : TightUpper n (tr ++ [(op, resp)]))
    (hroom : b.s.room = some (pos, end_)) (hfit : pos + (32 + 2 * (b0.types r).align + (n + 8) * (b0.types r).size) ≤ end_)
    (hI : 32 + 2 * (b0.types r).align + (n + 8) * (b0.types r).size ≤ ISIZE) :
    b3.s.w.log = b.s.w.log ∧ ∀ a k x, resp ≠ .iterErr a k x := by
  have h1 : BReach b0 b1 bk1 := h.extend (.snoc .nil hov hl hs ha)
  have h2 : InPlace false b.s.w.log (b0.types r) (n + 8) [] r b1 := .start h hz hs fun g hg => .room hg hroom hfit rfl
  rcases h2.steps h1 hk hz hI ht hw ho hF (hU.fits hn) hs3 with ⟨h3, h4 | ⟨h4, _⟩⟩ | ⟨h3, _⟩
  · exact ⟨h4, h3⟩
  · cases h4
  · cases h3

/-- C90 for a `Blink` whose arena is empty, as in the repository's test `test_bad_iter`: if the first block the underlying allocator gives is large
enough for `n + 8` items, the whole call makes at most that one request, and fails only if it is refused. -/
theorem C90_one_request {b0 b b1 b2 b3 : BState} {bk bk1 bk2 : BBook} {e r q n} {tr : List (BOp × BResp)} {op resp}
    (h : BReach b0 b bk) (hk : b0.kind.isAny = false) (hz : (b0.types r).size ≠ 0) (hov : b.over = false) (hl : b0.legal bk (.fromIter e r))
    (hs : bstep b (.fromIter e r) = .ok (.wait q, b1)) (ha : BAfter b0.types b0.kind bk (.fromIter e r) (.wait q) bk1)
    (ht : BSteps b0 b0.legal b1 bk1 tr b2 bk2) (hw : ∀ a ∈ tr, a.1.answers ∧ ∃ q, a.2 = .wait q)
    (ho : op.answers) (hs3 : bstep b2 op = .ok (resp, b3)) (hF : Fused (tr ++ [(op, resp)])) (hn : TrueLower n (tr ++ [(op, resp)]))
    (hU : TightUpper n (tr ++ [(op, resp)])) (hempty : b.s.room = none)
    (hB : ∀ B, b.s.w.oracle b.s.w.calls = some B → 32 + (32 + 2 * (b0.types r).align + (n + 8) * (b0.types r).size) ≤ B.len)
    (hM : b.s.a.minChunk + (32 + 2 * (b0.types r).align + (n + 8) * (b0.types r).size) + 16512 ≤ USIZE)
    (hI : 32 + 2 * (b0.types r).align + (n + 8) * (b0.types r).size ≤ ISIZE) :
    ((∀ a k x, resp ≠ .iterErr a k x) ∧ (b3.s.w.log = b.s.w.log ∨ ∃ R B, b3.s.w.log = .alloc R B :: b.s.w.log)) ∨
    ((∃ a k x, resp = .iterErr a k x) ∧ ∃ R, b3.s.w.log = .refused R :: b.s.w.log) := by
  have h1 : BReach b0 b1 bk1 := h.extend (.snoc .nil hov hl hs ha)
  have h0 : b.s.a.root = 0 := by
    obtain ⟨cs, items, hwk⟩ := h.wk
    have hi := hwk.inv.toInv hk
    rw [hi.room] at hempty
    rw [hi.root]
    cases cs with
    | nil => rfl
    | cons => cases hempty
  have h2 : InPlace true b.s.w.log (b0.types r) (n + 8) [] r b1 := .start h hz hs fun g hg => .empty rfl hg h0 hM hB rfl
  rcases h2.steps h1 hk hz hI ht hw ho hF (hU.fits hn) hs3 with ⟨h3, h4⟩ | ⟨_, h3, h4⟩
  · exact .inl ⟨h3, h4.imp id fun h => h.2⟩
  · exact .inr ⟨h3, h4⟩

/-! ### The hypotheses can be met -/

/-- Decides `TightUpper`, after `m` items (used to check the examples). -/
def tightB (n m : Nat) : List (BOp × BResp) → Bool
  | [] => true
  | (.hint _ none, _) :: _ => false
  | (.hint _ (some u), _) :: tr => decide (m + u ≤ n) && tightB n m tr
  | a :: tr => tightB n (m + yielded [a]) tr

theorem tightB_sound {n m : Nat} {tr : List (BOp × BResp)} (h : tightB n m tr = true) :
    ∀ tr1 l u q tr2, tr = tr1 ++ (.hint l u, q) :: tr2 → ∃ k, u = some k ∧ m + yielded tr1 + k ≤ n := by
  induction tr generalizing m with
  | nil => intro tr1 l u q tr2 he; cases tr1 <;> cases he
  | cons a tr ih =>
    intro tr1 l u q tr2 he
    have hy : ∀ tr1, yielded (a :: tr1) = yielded [a] + yielded tr1 := fun tr1 => yielded_append [a] tr1
    unfold tightB at h
    split at h
    · contradiction
    · cases h
    · rename_i l' u' q' tr' hx
      injection hx with hx1 hx2
      subst hx1 hx2
      rw [Bool.and_eq_true, decide_eq_true_eq] at h
      cases tr1 with
      | nil => cases he; exact ⟨_, rfl, h.1⟩
      | cons a' tr1 =>
        injection he with e1 e2
        obtain ⟨k, h1, h2⟩ := ih h.2 tr1 l u q tr2 e2
        refine ⟨k, h1, ?_⟩
        rw [← e1, hy, yielded_hint]
        omega
    · rename_i a' tr' hno1 hno2 hx
      injection hx with hx1 hx2
      subst hx1 hx2
      cases tr1 with
      | nil =>
        injection he with e1 _
        cases u with
        | none => exact (hno1 _ _ e1).elim
        | some u => exact (hno2 _ _ _ e1).elim
      | cons a' tr1 =>
        injection he with e1 e2
        obtain ⟨k, h1, h2⟩ := ih h tr1 l u q tr2 e2
        refine ⟨k, h1, ?_⟩
        rw [← e1, hy]
        omega

/-- 20 items of an iterator with bounds like those of `filter`. -/
def roomOps : List BOp := [.hint 0 (some 20)] ++ itemOps 1 ++ [.hint 0 (some 19)] ++ itemOps 17 ++ [.hint 0 (some 2)] ++ itemOps 2

/-- The hypotheses of `C90_in_place` and `C90_tight` are met: 20 items of 12 bytes with destructors, two rounds of growth, in a chunk that holds
something already. -/
example : ∃ b0 b b1 b2 b3 bk bk1 bk2 q tr resp pos end_, BReach b0 b bk ∧ b0.kind.isAny = false ∧ (b0.types 0).size ≠ 0 ∧ b.over = false ∧
    b0.legal bk (.fromIter .emplace 0) ∧ bstep b (.fromIter .emplace 0) = .ok (.wait q, b1) ∧
    BAfter b0.types b0.kind bk (.fromIter .emplace 0) (.wait q) bk1 ∧ BSteps b0 b0.legal b1 bk1 tr b2 bk2 ∧
    (∀ a ∈ tr, a.1.answers ∧ ∃ q, a.2 = .wait q) ∧ bstep b2 (.next none) = .ok (resp, b3) ∧ Fused (tr ++ [(.next none, resp)]) ∧
    TrueLower 20 (tr ++ [(.next none, resp)]) ∧ TightUpper 20 (tr ++ [(.next none, resp)]) ∧ b.s.room = some (pos, end_) ∧
    pos + (32 + 2 * (b0.types 0).align + (2 * 20 + 15) * (b0.types 0).size) ≤ end_ ∧
    32 + 2 * (b0.types 0).align + (2 * 20 + 15) * (b0.types 0).size ≤ ISIZE ∧ hints tr = 3 ∧ bk.refs.length = 1 := by
  obtain ⟨b, bk, r, b1, bk1, h1, h2, h3, h4, h5, h6⟩ := of_bdemoAt (bdemo_start [1024] .owned [] true)
    (ops := bdemoOps.take 1) (op := .fromIter .emplace 0) (f := fun b bk r b1 bk1 => match r with
      | .wait _ => match bexecAll (bdemo [1024] .owned [] true) false b1 bk1 roomOps with
        | some (tr, b2, _) => match bstep b2 (.next none), b.s.room with
          | .ok (resp, _), some (pos, end_) => tr.all isAnswerB && decide (fusedB (tr ++ [(.next none, resp)]) = true ∧ lowerB 20 0 (tr ++ [(.next none, resp)]) = true ∧
              tightB 20 0 (tr ++ [(.next none, resp)]) = true ∧ pos + 700 ≤ end_ ∧ hints tr = 3 ∧ bk.refs.length = 1)
          | _, _ => false
        | none => false
      | _ => false) (by decide +kernel)
  split at h6
  · rename_i q
    split at h6
    · rename_i tr b2 bk2 h7
      split at h6
      · rename_i resp b3 pos end_ h8 h9
        rw [Bool.and_eq_true, decide_eq_true_eq, List.all_eq_true] at h6
        obtain ⟨g1, g2, g3, g4, g5, g6⟩ := h6
        have hl := lowerB_sound g3
        simp only [Nat.zero_add] at hl
        have hu := tightB_sound g4
        simp only [Nat.zero_add] at hu
        exact ⟨_, b, b1, b2, b3, bk, bk1, bk2, q, tr, resp, pos, end_, h1, rfl, by decide, h2, h3, h4, h5, bexecAll_sound h7,
          fun a ha => isAnswerB_sound (g1 a ha), h8, fusedB_sound g2, hl, hu, h9,
          by have : ((bdemo [1024] .owned [] true).types 0).align = 4 ∧ ((bdemo [1024] .owned [] true).types 0).size = 12 := by decide
             omega, by decide, g6⟩
      · cases h6
    · cases h6
  · cases h6

/-- The hypotheses of `C90_one_request` are met: the same in a fresh `Blink`, with one block of 512 bytes. -/
example : ∃ b0 b b1 b2 b3 bk bk1 bk2 q tr resp, BReach b0 b bk ∧ b0.kind.isAny = false ∧ (b0.types 0).size ≠ 0 ∧ b.over = false ∧
    b0.legal bk (.fromIter .emplace 0) ∧ bstep b (.fromIter .emplace 0) = .ok (.wait q, b1) ∧
    BAfter b0.types b0.kind bk (.fromIter .emplace 0) (.wait q) bk1 ∧ BSteps b0 b0.legal b1 bk1 tr b2 bk2 ∧
    (∀ a ∈ tr, a.1.answers ∧ ∃ q, a.2 = .wait q) ∧ bstep b2 (.next none) = .ok (resp, b3) ∧ Fused (tr ++ [(.next none, resp)]) ∧
    TrueLower 20 (tr ++ [(.next none, resp)]) ∧ TightUpper 20 (tr ++ [(.next none, resp)]) ∧ b.s.room = none ∧
    (∀ B, b.s.w.oracle b.s.w.calls = some B → 32 + (32 + 2 * (b0.types 0).align + (20 + 8) * (b0.types 0).size) ≤ B.len) ∧
    b.s.a.minChunk + (32 + 2 * (b0.types 0).align + (20 + 8) * (b0.types 0).size) + 16512 ≤ USIZE ∧
    32 + 2 * (b0.types 0).align + (20 + 8) * (b0.types 0).size ≤ ISIZE ∧ hints tr = 3 ∧ b.s.w.oracle 0 ≠ none ∧ b.s.w.oracle 1 = none := by
  obtain ⟨b, bk, r, b1, bk1, h1, h2, h3, h4, h5, h6⟩ := of_bdemoAt (bdemo_start [512] .owned [] true)
    (ops := []) (op := .fromIter .emplace 0) (f := fun b bk r b1 bk1 => match r with
      | .wait _ => match bexecAll (bdemo [512] .owned [] true) false b1 bk1 roomOps with
        | some (tr, b2, _) => match bstep b2 (.next none), b.s.w.oracle b.s.w.calls with
          | .ok (resp, _), some B => tr.all isAnswerB && decide (fusedB (tr ++ [(.next none, resp)]) = true ∧ lowerB 20 0 (tr ++ [(.next none, resp)]) = true ∧
              tightB 20 0 (tr ++ [(.next none, resp)]) = true ∧ b.s.room = none ∧ 512 ≤ B.len ∧ b.s.a.minChunk = 256 ∧ hints tr = 3 ∧ b.s.w.oracle 0 ≠ none ∧ b.s.w.oracle 1 = none)
          | _, _ => false
        | none => false
      | _ => false) (by decide +kernel)
  split at h6
  · rename_i q
    split at h6
    · rename_i tr b2 bk2 h7
      split at h6
      · rename_i resp b3 B h8 h9
        rw [Bool.and_eq_true, decide_eq_true_eq, List.all_eq_true] at h6
        obtain ⟨g1, g2, g3, g4, g5, g6, g7, g8⟩ := h6
        have hl := lowerB_sound g3
        simp only [Nat.zero_add] at hl
        have hu := tightB_sound g4
        simp only [Nat.zero_add] at hu
        have hty : ((bdemo [512] .owned [] true).types 0).align = 4 ∧ ((bdemo [512] .owned [] true).types 0).size = 12 := by decide
        exact ⟨_, b, b1, b2, b3, bk, bk1, bk2, q, tr, resp, h1, rfl, by decide, h2, h3, h4, h5, bexecAll_sound h7,
          fun a ha => isAnswerB_sound (g1 a ha), h8, fusedB_sound g2, hl, hu, g5,
          fun B' hB' => by rw [h9] at hB'; cases hB'; omega, by have : USIZE = 18446744073709551616 := rfl; omega, by decide, g8⟩
      · cases h6
    · cases h6
  · cases h6

end Blink
